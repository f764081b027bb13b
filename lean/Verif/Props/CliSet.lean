import Verif.Props.Cli
import Verif.Props.CollisionReports4

/-!
# C121 The tool validating labels, C122 the tool looking for collisions with reference labels

`tools/lgr_validate.py`, `tools/lgr_collision.py`.
-/

namespace Lgr.Props.C121
open Lgr Cli Collisions C32 FullEnv Repertoire

/-! ## The label of the set a label collides with -/

/-- What is to be said of a label about the labels of the set, `index` being the index labels by the merged LGR. -/
inductive Says (index : Seq → Except Err Seq) (set : List Seq) (l : Seq) : VLine → Prop where
  | inSet : l ∈ set → Says index set l .inSet
  | collides (s k : Seq) : l ∉ set → s ∈ set → index s = .ok k → index l = .ok k → Says index set l (.collides s)
  | noCollision : l ∉ set → (∀ s ∈ set, ∀ k, index s = .ok k → index l ≠ .ok k) → Says index set l .noCollision

/-- No two labels of the set collide. -/
def Checked (index : Seq → Except Err Seq) (set : List Seq) : Prop :=
  ∀ s ∈ set, ∀ s' ∈ set, ∀ k, index s = .ok k → index s' = .ok k → s = s'

theorem quiet_group {index : Seq → Except Err Seq} {dispo : Dispo} {labels : List Seq} (hnd : labels.Nodup)
    {d : Indexes} (h : getCollisions index dispo labels true [] = .ok d) :
    (d.map Prod.fst).Nodup ∧ ∀ k es, dget d k = some es →
      (es.map Entry.cp).Nodup ∧ ∀ x, (∃ e ∈ es, e.cp = x) ↔ x ∈ labels ∧ index x = .ok k := by
  unfold getCollisions at h
  split at h
  · cases h
  rename_i d1 n1 h1
  cases h
  obtain ⟨h2, h3⟩ := generate_spec (.inl ⟨rfl, rfl⟩) h1
  refine ⟨h2, fun k es hes => ?_⟩
  rw [inputs_labels] at h3
  obtain ⟨h4, h5⟩ := h3 k
  by_cases hk : share (ofLabels index .primary labels) k = []
  · rw [h4 hk] at hes; cases hes
  · have ho := h5 hk
    unfold Outcome at ho
    split at ho
    · rw [ho] at hes; cases hes
    · rw [if_pos ⟨rfl, rfl⟩, hes] at ho
      cases ho
      constructor
      · rw [List.map_map]
        exact (hnd.sublist (ofLabels_sub index .primary labels)).sublist ((share_sub _ k).map _)
      · intro x
        constructor
        · rintro ⟨e, he, rfl⟩
          obtain ⟨i, hi, rfl⟩ := List.mem_map.1 he
          unfold share at hi
          rw [List.mem_filter, mem_ofLabels] at hi
          have : i.idx = k := by simpa using hi.2
          exact ⟨hi.1.1, this ▸ hi.1.2.2⟩
        · rintro ⟨hx, hi⟩
          refine ⟨Input.entry ⟨x, .primary, k⟩, List.mem_map.2 ⟨_, ?_, rfl⟩, rfl⟩
          unfold share
          rw [List.mem_filter, mem_ofLabels]
          exact ⟨⟨hx, rfl, hi⟩, by simp⟩

/-- Without the variants, dispositions are not computed. -/
theorem quiet_dispo (index : Seq → Except Err Seq) (dispo dispo' : Dispo) (labels : List Seq) :
    getCollisions index dispo labels true [] = getCollisions index dispo' labels true [] := by
  have : groupStep dispo true false = groupStep dispo' true false := by
    funext d g
    unfold groupStep
    split
    · rfl
    · simp
  unfold getCollisions generateIndexes
  rw [this]

theorem single {es : List Entry} {s : Seq} (hn : (es.map Entry.cp).Nodup) (hs : ∃ e ∈ es, e.cp = s)
    (ha : ∀ e ∈ es, e.cp = s) : ∃ e, es = [e] ∧ e.cp = s := by
  match es with
  | [] => simp at hs
  | [e] => exact ⟨e, rfl, ha e (by simp)⟩
  | e :: e' :: es =>
    exfalso
    simp only [List.map_cons, List.nodup_cons, List.mem_cons, not_or] at hn
    exact hn.1.1 ((ha e (by simp)).trans (ha e' (by simp)).symm)

/-- **C121** With a set whose labels do not collide, what is written about the collisions of a label is right. -/
theorem collisions_exact {index : Seq → Except Err Seq} {dispo : Dispo} {order : List Seq → List Seq}
    {reread : Seq → List Seq} (ho : C44.Order order) {set : List Seq} {l : Seq}
    (hr : ∀ x ∈ set ++ [l], reread x = [x]) (hc : Checked index set)
    (hidx : ∀ l e, index l = .error e → ∃ s, e = .notInLGR s) :
    ∃ x, validateCollisions index dispo order reread set l = .ok (some x) ∧ Says index set l x := by
  unfold validateCollisions
  by_cases hl : l ∈ set
  · rw [if_pos hl]; exact ⟨_, rfl, .inSet hl⟩
  rw [if_neg hl]
  have hf : ∀ ys : List Seq, (∀ x ∈ ys, reread x = [x]) → ys.flatMap reread = ys := by
    intro ys
    induction ys with
    | nil => intro _; rfl
    | cons y ys ih =>
      intro h
      rw [List.flatMap_cons, h y (by simp), ih (fun x hx => h x (by simp [hx]))]
      rfl
  rw [hf _ hr]
  obtain ⟨d, hd⟩ := get_collisions_returns index (fun _ _ _ => ([], .ok ())) (order (set ++ [l])) true
    (ho.nodup _) hidx (fun _ _ _ => rfl)
  rw [quiet_dispo index dispo (fun _ _ _ => ([], .ok ())), hd]
  obtain ⟨hkn, hg⟩ := quiet_group (ho.nodup _) hd
  have hrep := group_reported_iff index _ _ true (ho.nodup _) d hd
  -- every group is the one of the label
  have key : ∀ k, k ∈ d.map Prod.fst → index l = .ok k ∧ ∃ s ∈ set, index s = .ok k := by
    intro k hk
    obtain ⟨l1, h1, l2, h2, hne, h3, h4⟩ := (hrep k).1 hk
    rw [ho.mem] at h1 h2
    rcases List.mem_append.1 h1 with h1 | h1
    · rcases List.mem_append.1 h2 with h2 | h2
      · exact absurd (hc l1 h1 l2 h2 k h3 h4) hne
      · rw [List.mem_singleton.1 h2] at h4; exact ⟨h4, l1, h1, h3⟩
    · rw [List.mem_singleton.1 h1] at h3 hne
      rcases List.mem_append.1 h2 with h2 | h2
      · exact ⟨h3, l2, h2, h4⟩
      · exact absurd (List.mem_singleton.1 h2).symm hne
  match d, hkn, hg, hrep, key with
  | [], _, _, hrep, _ =>
    refine ⟨_, rfl, .noCollision hl ?_⟩
    intro s hs k h1 h2
    have := (hrep k).2 ⟨s, (ho.mem _ _).2 (by simp [hs]), l, (ho.mem _ _).2 (by simp),
      by rintro rfl; exact hl hs, h1, h2⟩
    simp at this
  | [(k, es)], _, hg, _, key =>
    obtain ⟨h1, s, hs, h2⟩ := key k (by simp)
    obtain ⟨h3, h4⟩ := hg k es (by simp [dget])
    obtain ⟨e, he, hel⟩ := (h4 l).2 ⟨(ho.mem _ _).2 (by simp), h1⟩
    have hany : es.any (fun e => decide (e.cp = l)) = true := List.any_eq_true.2 ⟨e, he, by simpa using hel⟩
    simp only [hany, if_true]
    obtain ⟨e', he', hes⟩ := single (es := es.filter (fun e => decide (e.cp ∈ set))) (s := s)
      (h3.sublist (List.filter_sublist.map _))
      (by
        obtain ⟨e', h5, h6⟩ := (h4 s).2 ⟨(ho.mem _ _).2 (by simp [hs]), h2⟩
        exact ⟨e', List.mem_filter.2 ⟨h5, by simpa [h6] using hs⟩, h6⟩)
      (by
        intro e' he'
        rw [List.mem_filter] at he'
        exact hc _ (by simpa using he'.2) s hs k ((h4 _).1 ⟨e', he'.1, rfl⟩).2 h2)
    rw [he']
    simp only
    rw [hes]
    exact ⟨_, rfl, .collides s k hl hs h2 h1⟩
  | (k1, _) :: (k2, _) :: _, hkn, _, _, key =>
    exfalso
    have h1 := (key k1 (by simp)).1
    have h2 := (key k2 (by simp)).1
    rw [h1] at h2
    cases h2
    simp at hkn

/-- The indexes by an LGR whose rules are defined raise nothing but `NotInLGR`. -/
theorem index_defined {env : FullEnv} {r : Repertoire} {actions : List Action} (h : C113.Defined env r actions) :
    ∀ l e, env.indexLabel r l 0 = .error e → ∃ s, e = .notInLGR s := by
  intro l e he
  by_cases hl : l = []
  · subst hl; simp [Env.indexLabel, Env.indexLabel0] at he
  · obtain ⟨p, hp⟩ := prelim_defined h.wf h.rules l
    cases hok : p.ok with
    | false =>
      obtain ⟨x, _, _, _, _, h1⟩ := C17.index_of_rejected h.wf hl hp hok 0
      rw [h1] at he
      cases he
      exact ⟨_, rfl⟩
    | true =>
      obtain ⟨i, h1, -⟩ := C17.index_of_accepted h.wf h.rules hl hp hok
      rw [h1] at he
      cases he

/-! ## The lines of a label -/

/-- What is to be written about a label, when variants are not asked for. -/
inductive Block (env : FullEnv) (r : Repertoire) (actions : List Action) (about : Option (Seq → Except Err Seq))
    (set : List Seq) (l : Seq) : List VLine → Prop where
  | refused (el : Eligible) : env.testEligible r actions l = .ok el → el.ok = false → el.invalid = [] →
      Block env r actions about set l [.label l, .eligible false, .disposition el.disp, .validParts el.parts]
  | refusedParts (el : Eligible) : env.testEligible r actions l = .ok el → el.ok = false → el.invalid ≠ [] →
      Block env r actions about set l
        [.label l, .eligible false, .disposition el.disp, .validParts el.parts, .invalidParts el.invalid]
  | alone (el : Eligible) : env.testEligible r actions l = .ok el → el.ok = true → (about = none ∨ set = []) →
      Block env r actions about set l [.label l, .eligible true, .disposition el.disp]
  | inSet (el : Eligible) (index : Seq → Except Err Seq) (x : VLine) : env.testEligible r actions l = .ok el →
      el.ok = true → about = some index → set ≠ [] → Says index set l x →
      Block env r actions about set l [.label l, .eligible true, .disposition el.disp, .collisions, x]

/-- A merged LGR whose rules are defined, a set whose labels do not collide, labels that are read as themselves. -/
structure Ready (m : Merged) (set labels : List Seq) : Prop where
  order : C44.Order m.order
  reread : ∀ x ∈ set ++ labels, m.reread x = [x]
  checked : Checked m.index set
  index : ∀ l e, m.index l = .error e → ∃ s, e = .notInLGR s

theorem block_partial {env : FullEnv} {r : Repertoire} {actions : List Action} {hasDb : Bool} {merged : Option Merged}
    {set : List Seq} {l : Seq} (hm : ∀ m, merged = some m → Ready m set [l]) {el : Eligible}
    (he : env.testEligible r actions l = .ok el) :
    ∃ xs, validateLabel env r actions hasDb false merged set l = (xs, .ok ()) ∧
      Block env r actions (merged.map Merged.index) set l xs := by
  unfold validateLabel
  rw [he]
  simp only
  cases hok : el.ok with
  | false =>
    simp only [Bool.false_eq_true, if_false]
    by_cases hi : el.invalid = []
    · rw [if_pos hi]
      exact ⟨_, rfl, .refused el he hok hi⟩
    · rw [if_neg hi]
      exact ⟨_, rfl, .refusedParts el he hok hi⟩
  | true =>
    simp only [if_true]
    by_cases hs : set = []
    · rw [if_pos hs]
      exact ⟨_, rfl, .alone el he hok (.inr hs)⟩
    · rw [if_neg hs]
      rcases merged with _ | m
      · exact ⟨_, rfl, .alone el he hok (.inl rfl)⟩
      · obtain ⟨h1, h2, h3, h4⟩ := hm m rfl
        obtain ⟨x, h5, h6⟩ := collisions_exact (dispo := m.dispo) h1 h2 h3 h4
        simp only
        rw [h5]
        exact ⟨_, rfl, .inSet el m.index x he hok rfl hs h6⟩

/-! ## The labels of the set -/

/-- The labels of the set that are kept: those read as valid. -/
def kept (reads : List LabelInput.Read) : List Seq := (reads.filter (fun x => x.valid)).map (fun x => x.label)

theorem filter_partial {env : FullEnv} {r : Repertoire} {reads : List LabelInput.Read}
    (h : ∀ x ∈ reads, x.valid = true → Accepted env r x.label) :
    filterSet env r reads =
      ((reads.filter (fun x => !x.valid)).map (fun x => VLine.badSetLabel x.label), .ok (kept reads)) := by
  induction reads with
  | nil => rfl
  | cons x xs ih =>
    have ih := ih (fun y hy => h y (by simp [hy]))
    unfold filterSet
    cases hv : x.valid with
    | false =>
      rw [ih]
      simp [hv, kept]
    | true =>
      obtain ⟨p, hp, hok⟩ := h x (by simp) hv
      rw [ih]
      simp [hv, hp, hok, kept, Except.map]

/-- A valid label of the set that is not in the LGR of the script ends the reading of the set. -/
theorem filter_raises {env : FullEnv} {r : Repertoire} {reads : List LabelInput.Read} {x : LabelInput.Read}
    (hp : ∀ y ∈ reads, ∃ p, env.prelim r y.label = .ok p) (hx : x ∈ reads) (hv : x.valid = true)
    (ha : ¬ Accepted env r x.label) : (filterSet env r reads).2 = .error .typeError := by
  induction reads with
  | nil => simp at hx
  | cons y ys ih =>
    unfold filterSet
    obtain ⟨p, hyp⟩ := hp y (by simp)
    cases hyv : y.valid with
    | false =>
      simp only [Bool.not_false, if_true]
      rcases List.mem_cons.1 hx with rfl | hx
      · rw [hv] at hyv; cases hyv
      · exact ih (fun z hz => hp z (by simp [hz])) hx
    | true =>
      simp only [Bool.not_true, Bool.false_eq_true, if_false]
      rw [hyp]
      simp only
      cases hok : p.ok with
      | false => rfl
      | true =>
        simp only [Bool.not_true, Bool.false_eq_true, if_false]
        rcases List.mem_cons.1 hx with rfl | hx
        · exact absurd ⟨p, hyp, hok⟩ ha
        · rw [ih (fun z hz => hp z (by simp [hz])) hx]
          rfl

/-! ## The tool -/

/-- **C121** The lines written when variants are not asked for, and all the valid labels of the set are in the LGR of
the script. Missing: variants (`variants_wrong`), other labels in the set (`set_label_wrong`). -/
theorem main_partial {env : FullEnv} {r : Repertoire} {actions : List Action} {hasDb : Bool} {m : Merged}
    {reads : List LabelInput.Read} {labels : List Seq}
    (hset : ∀ x ∈ reads, x.valid = true → Accepted env r x.label) (hm : Ready m (kept reads) labels)
    (he : ∀ l ∈ labels, ∃ el, env.testEligible r actions l = .ok el) :
    ∃ bs, validateMain env r actions hasDb false (some m) reads labels =
      (.setLabels :: (reads.filter (fun x => !x.valid)).map (fun x => VLine.badSetLabel x.label) ++
        .endSetLabels :: bs.flatten, .ok ()) ∧
      List.Forall₂ (Block env r actions (some m.index) (kept reads)) labels bs := by
  have h1 : ∀ l ∈ labels, ∃ xs, validateLabel env r actions hasDb false (some m) (kept reads) l = (xs, .ok ()) ∧
      Block env r actions (some m.index) (kept reads) l xs := by
    intro l hl
    obtain ⟨el, h2⟩ := he l hl
    refine block_partial (merged := some m) ?_ h2
    rintro _ ⟨⟩
    refine ⟨hm.order, fun x hx => hm.reread x ?_, hm.checked, hm.index⟩
    rcases List.mem_append.1 hx with hx | hx
    · simp [hx]
    · rw [List.mem_singleton.1 hx]; simp [hl]
  refine ⟨labels.map (fun l => (validateLabel env r actions hasDb false (some m) (kept reads) l).1), ?_, ?_⟩
  · unfold validateMain
    simp only
    rw [filter_partial hset]
    simp only
    rw [C120.each_ok, List.flatMap_def]
    intro l hl
    obtain ⟨xs, h2, -⟩ := h1 l hl
    rw [h2]
  · rw [List.forall₂_map_right_iff, List.forall₂_same]
    intro l hl
    obtain ⟨xs, h2, h3⟩ := h1 l hl
    rw [h2]
    exact h3

/-- With a single LGR. -/
theorem main_single_partial {env : FullEnv} {r : Repertoire} {actions : List Action} {hasDb : Bool}
    {reads : List LabelInput.Read} {labels : List Seq}
    (he : ∀ l ∈ labels, ∃ el, env.testEligible r actions l = .ok el) :
    ∃ bs, validateMain env r actions hasDb false none reads labels = (bs.flatten, .ok ()) ∧
      List.Forall₂ (Block env r actions none []) labels bs := by
  have h1 : ∀ l ∈ labels, ∃ xs, validateLabel env r actions hasDb false none [] l = (xs, .ok ()) ∧
      Block env r actions none [] l xs := by
    intro l hl
    obtain ⟨el, h2⟩ := he l hl
    exact block_partial (merged := none) (by rintro _ ⟨⟩) h2
  refine ⟨labels.map (fun l => (validateLabel env r actions hasDb false none [] l).1), ?_, ?_⟩
  · unfold validateMain
    simp only
    rw [C120.each_ok, List.flatMap_def]
    intro l hl
    obtain ⟨xs, h2, -⟩ := h1 l hl
    rw [h2]
  · rw [List.forall₂_map_right_iff, List.forall₂_same]
    intro l hl
    obtain ⟨xs, h2, h3⟩ := h1 l hl
    rw [h2]
    exact h3

/-- **C121** is violated: with `-g`, no eligible label has a variant listed, not even itself, and the tool ends at
the first one whose listing succeeds. -/
theorem variants_wrong {env : FullEnv} {r : Repertoire} {actions : List Action} {hasDb : Bool} {l : Seq}
    {el : Eligible} {its : List Item} (he : env.testEligible r actions l = .ok el) (hok : el.ok = true)
    (hd : env.computeDisposition r actions hasDb {} l = .ok its) (reads : List LabelInput.Read) (ls : List Seq) :
    its ≠ [] ∧ validateMain env r actions hasDb true none reads (l :: ls) =
      ([.label l, .eligible true, .disposition el.disp, .variants], .error .valueError) := by
  obtain ⟨its', last, rfl, -⟩ := (C25.listing hd).1
  refine ⟨by simp, ?_⟩
  have h1 : validateItems (its' ++ [last]) = ([], .error .valueError) := by
    cases its' <;> rfl
  have h2 : validateLabel env r actions hasDb true none [] l =
      ([.label l, .eligible true, .disposition el.disp, .variants], .error .valueError) := by
    unfold validateLabel validateVariants
    rw [he]
    simp only [hok, if_true]
    rw [hd]
    simp only
    rw [h1]
    rfl
  unfold validateMain eachLabel
  simp only
  rw [h2]

/-- **C121** is violated: a valid label of the set that the LGR of the script does not accept, such as a label of
another script, ends the tool before any label is tested. -/
theorem set_label_wrong {env : FullEnv} {r : Repertoire} {actions : List Action} {hasDb gen : Bool} {m : Merged}
    {reads : List LabelInput.Read} {x : LabelInput.Read} (hp : ∀ y ∈ reads, ∃ p, env.prelim r y.label = .ok p)
    (hx : x ∈ reads) (hv : x.valid = true) (ha : ¬ Accepted env r x.label) (labels : List Seq) :
    ∃ out, validateMain env r actions hasDb gen (some m) reads labels = (out, .error .typeError) ∧
      ∀ l ∈ labels, VLine.label l ∉ out := by
  have h1 := filter_raises hp hx hv ha
  have h2 : ∀ ys : List LabelInput.Read, ∀ l, VLine.label l ∉ (filterSet env r ys).1 := by
    intro ys l
    induction ys with
    | nil => simp [filterSet]
    | cons y ys ih =>
      unfold filterSet
      split
      · simp [ih]
      · split
        · simp
        · split
          · split
            · simp
            · simp [ih]
          · exact ih
  unfold validateMain
  simp only
  rcases hfs : filterSet env r reads with ⟨out, res⟩
  rw [hfs] at h1
  simp only at h1
  subst h1
  refine ⟨_, rfl, ?_⟩
  intro l _
  have := h2 reads l
  rw [hfs] at this
  simpa using this

/-! Examples -/

def rd (l : Seq) (v : Bool := true) : LabelInput.Read := ⟨[], l, v, some none⟩

/-- 1 and 2 are variants of each other in the merged LGR, 3 is alone. -/
def merged1 : Merged :=
  ⟨fun l => if l = [2] then .ok [1] else if l = [9] then .error (.notInLGR [9]) else .ok l, fun _ _ _ => ([], .ok ()),
    List.dedup, fun l => [l]⟩

def rep1 : Repertoire := ⟨[], [(1, [{ cp := [1] }]), (2, [{ cp := [2] }]), (3, [{ cp := [3] }])]⟩

example : Ready merged1 [[1]] [[2], [3], [1]] :=
  ⟨⟨List.nodup_dedup, fun _ _ => List.mem_dedup⟩, fun _ _ => rfl, by
      intro s hs s' hs' k _ _
      simp at hs hs'
      rw [hs, hs'], by
      intro l e h
      simp only [merged1] at h
      split at h
      · cases h
      · split at h
        · cases h; exact ⟨_, rfl⟩
        · cases h⟩

example : (validateMain C120.env1 rep1 [] true false (some merged1) [rd [1], rd [7] false] [[2], [3], [1]]).1 =
    [.setLabels, .badSetLabel [7], .endSetLabels,
      .label [2], .eligible true, .disposition (some "valid"), .collisions, .collides [1],
      .label [3], .eligible true, .disposition (some "valid"), .collisions, .noCollision,
      .label [1], .eligible true, .disposition (some "valid"), .collisions, .inSet] := by decide +kernel

example : validateMain C120.env1 rep1 [] true true none [] [[1], [2]] =
    ([.label [1], .eligible true, .disposition (some "valid"), .variants], .error .valueError) := by decide +kernel

example : validateMain C120.env1 rep1 [] true false (some merged1) [rd [1], rd [8]] [[1]] =
    ([.setLabels], .error .typeError) := by decide +kernel

/-- The LGR used for the script is the last one of the set with that first language. -/
theorem script_last {α : Type} (first : α → Option String) (script : String) (set : List α) :
    scriptLgr first script set none = (set.filter (fun x => decide (first x = some script))).getLast? := by
  have key : ∀ (set : List α) (cur : Option α), scriptLgr first script set cur =
      ((set.filter (fun x => decide (first x = some script))).getLast?).or cur := by
    intro set
    induction set with
    | nil => intro cur; rfl
    | cons x xs ih =>
      intro cur
      unfold scriptLgr
      rw [ih]
      by_cases h : first x = some script
      · rw [if_pos h, List.filter_cons_of_pos (by simpa using h), List.getLast?_cons]
        cases (xs.filter (fun x => decide (first x = some script))).getLast? <;> rfl
      · rw [if_neg h, List.filter_cons_of_neg (by simpa using h)]
  rw [key]
  simp

end Lgr.Props.C121

namespace Lgr.Props.C122
open Lgr Cli FullEnv Repertoire

/-! ## The reference labels -/

/-- `ref` is the last reference label with index `k`. -/
def LastWith (index : Seq → Except Err Seq) (refs : List Seq) (k ref : Seq) : Prop :=
  ∃ pre post, refs = pre ++ ref :: post ∧ index ref = .ok k ∧ ∀ x ∈ post, index x ≠ .ok k

theorem last_cons {index : Seq → Except Err Seq} {x : Seq} {refs : List Seq} {k ref : Seq} :
    LastWith index (x :: refs) k ref ↔
      LastWith index refs k ref ∨ (ref = x ∧ index x = .ok k ∧ ∀ y ∈ refs, index y ≠ .ok k) := by
  constructor
  · rintro ⟨pre, post, h1, h2, h3⟩
    rcases pre with _ | ⟨p, pre⟩
    · simp only [List.nil_append, List.cons.injEq] at h1
      obtain ⟨rfl, rfl⟩ := h1
      exact .inr ⟨rfl, h2, h3⟩
    · simp only [List.cons_append, List.cons.injEq] at h1
      obtain ⟨rfl, rfl⟩ := h1
      exact .inl ⟨pre, post, rfl, h2, h3⟩
  · rintro (⟨pre, post, rfl, h2, h3⟩ | ⟨rfl, h2, h3⟩)
    · exact ⟨x :: pre, post, rfl, h2, h3⟩
    · exact ⟨[], refs, rfl, h2, h3⟩

theorem last_exists {index : Seq → Except Err Seq} {refs : List Seq} {k : Seq} :
    (∃ ref, LastWith index refs k ref) ↔ ∃ x ∈ refs, index x = .ok k := by
  induction refs with
  | nil => simp [LastWith]
  | cons x refs ih =>
    by_cases h : ∃ y ∈ refs, index y = .ok k
    · obtain ⟨ref, hr⟩ := ih.2 h
      obtain ⟨y, hy, hk⟩ := h
      exact ⟨fun _ => ⟨y, by simp [hy], hk⟩, fun _ => ⟨ref, last_cons.2 (.inl hr)⟩⟩
    · constructor
      · rintro ⟨ref, hr⟩
        rcases last_cons.1 hr with h1 | ⟨-, h1, -⟩
        · exact absurd (ih.1 ⟨ref, h1⟩) h
        · exact ⟨x, by simp, h1⟩
      · rintro ⟨y, hy, hk⟩
        rcases List.mem_cons.1 hy with rfl | hy
        · exact ⟨y, last_cons.2 (.inr ⟨rfl, hk, fun z hz hz' => h ⟨z, hz, hz'⟩⟩)⟩
        · exact absurd ⟨y, hy, hk⟩ h

theorem refs_get {index : Seq → Except Err Seq} : ∀ {refs : List Seq} {d d' : List (Seq × Seq)},
    refIndexes index d refs = .ok d' → ∀ k ref, dget d' k = some ref ↔
      LastWith index refs k ref ∨ (dget d k = some ref ∧ ∀ x ∈ refs, index x ≠ .ok k)
  | [], d, d', h, k, ref => by
    cases h
    simp [LastWith]
  | x :: refs, d, d', h, k, ref => by
    unfold refIndexes at h
    split at h
    · rename_i s hs
      rw [refs_get h k ref, last_cons]
      simp [hs]
    · cases h
    · rename_i i hi
      rw [refs_get h k ref, last_cons, dget_dset]
      by_cases hk : i = k
      · subst hk
        simp only [if_true, Option.some.injEq, List.mem_cons, forall_eq_or_imp, hi, ne_eq, not_true_eq_false, false_and,
          and_false, or_false, true_and]
        constructor
        · rintro (h1 | ⟨rfl, h1⟩)
          · exact .inl h1
          · exact .inr ⟨rfl, h1⟩
        · rintro (h1 | ⟨rfl, h1⟩)
          · exact .inl h1
          · exact .inr ⟨rfl, h1⟩
      · have hne : index x ≠ .ok k := by rw [hi]; simpa using hk
        simp [hk, hi, Ne.symm hk]

theorem refs_returns {index : Seq → Except Err Seq} (hidx : ∀ l e, index l = .error e → ∃ s, e = .notInLGR s) :
    ∀ (refs : List Seq) (d : List (Seq × Seq)), ∃ d', refIndexes index d refs = .ok d'
  | [], d => ⟨d, rfl⟩
  | x :: refs, d => by
    unfold refIndexes
    cases hi : index x with
    | error e =>
      obtain ⟨s, rfl⟩ := hidx x e hi
      exact refs_returns hidx refs d
    | ok k => exact refs_returns hidx refs _

/-! ## The lines of a label -/

/-- What is to be written about a label. -/
inductive Block (env : FullEnv) (r : Repertoire) (actions : List Action) (hasDb generate : Bool) (refs : List Seq)
    (l : Seq) : List CLine → Prop where
  | noCollision (k : Seq) : env.indexLabel r l 0 = .ok k → (∀ x ∈ refs, env.indexLabel r x 0 ≠ .ok k) →
      Block env r actions hasDb generate refs l [.check l, .noCollision l]
  | collision (k ref : Seq) : generate = false → env.indexLabel r l 0 = .ok k →
      LastWith (fun x => env.indexLabel r x 0) refs k ref →
      Block env r actions hasDb generate refs l [.check l, .collision l ref]
  /-- The labels listed for the label that are generated from the reference label. -/
  | blocked (k ref : Seq) (gs : List Gen) (its : List Item) : generate = true → env.indexLabel r l 0 = .ok k →
      LastWith (fun x => env.indexLabel r x 0) refs k ref → env.genVariants r false ref = .ok gs →
      env.computeDisposition r actions hasDb {} l = .ok its →
      Block env r actions hasDb generate refs l (.check l :: .collision l ref ::
        (its.filter (fun it => gs.any (fun g => g.cps = it.cps))).map (fun it => .block it.cps it.types it.disp))

/-- **C122** The lines about the labels, when all have an index. Missing: labels that are not in the LGR
(`unknown_wrong`). -/
theorem main_partial {env : FullEnv} {r : Repertoire} {actions : List Action} (h : C113.Defined env r actions)
    {hasDb generate : Bool} {refs labels : List Seq} (hl : ∀ l ∈ labels, ∃ k, env.indexLabel r l 0 = .ok k)
    (hg : generate = true → ∀ l ∈ labels, ∃ its, env.computeDisposition r actions hasDb {} l = .ok its) :
    ∃ bs, collisionMain env r actions hasDb generate refs labels = (bs.flatten, .ok ()) ∧
      List.Forall₂ (Block env r actions hasDb generate refs) labels bs := by
  obtain ⟨d, hd⟩ := refs_returns (C121.index_defined h) refs []
  have hget := refs_get hd
  simp only [dget, reduceCtorEq, false_and, or_false] at hget
  have h1 : ∀ l ∈ labels, ∃ xs, collisionLabel env r actions hasDb generate d l = (xs, .ok ()) ∧
      Block env r actions hasDb generate refs l xs := by
    intro l hlm
    obtain ⟨k, hk⟩ := hl l hlm
    unfold collisionLabel
    rw [hk]
    simp only
    rcases hx : dget d k with _ | ref
    · refine ⟨_, rfl, .noCollision k hk ?_⟩
      intro x hx1 hx2
      obtain ⟨ref, hr⟩ := last_exists (index := fun x => env.indexLabel r x 0).2 ⟨x, hx1, hx2⟩
      have hr := (hget k ref).2 hr
      rw [hr] at hx
      cases hx
    · have hlast := (hget k ref).1 hx
      simp only
      cases hgen : generate with
      | false => exact ⟨_, rfl, .collision k ref rfl hk hlast⟩
      | true =>
        obtain ⟨its, hi⟩ := hg hgen l hlm
        obtain ⟨gs, hgs⟩ := genVariants_defined h.wf h.rules false ref
        simp only [if_true]
        have hv : variantsToBlock env r actions hasDb ref l =
            ((its.filter (fun it => gs.any (fun g => g.cps = it.cps))).map
              (fun it => .block it.cps it.types it.disp), .ok ()) := by
          unfold variantsToBlock
          rw [hgs]
          simp only
          rw [hi]
          simp only [Prod.mk.injEq, and_true]
          congr 1
          refine List.filter_congr fun it _ => ?_
          rw [Bool.eq_iff_iff]
          simp
        rw [hv]
        exact ⟨_, rfl, .blocked k ref gs its rfl hk hlast hgs hi⟩
  refine ⟨labels.map (fun l => (collisionLabel env r actions hasDb generate d l).1), ?_, ?_⟩
  · unfold collisionMain
    rw [hd]
    simp only
    rw [C120.each_ok, List.flatMap_def]
    intro l hlm
    obtain ⟨xs, h2, -⟩ := h1 l hlm
    rw [h2]
  · rw [List.forall₂_map_right_iff, List.forall₂_same]
    intro l hlm
    obtain ⟨xs, h2, h3⟩ := h1 l hlm
    rw [h2]
    exact h3

/-- **C122** With prefix free, symmetric, transitive and unconditional repertoires, a collision is written exactly
for the labels that are variants of a reference label that is in the LGR. -/
theorem collision_iff_variant_partial {env : FullEnv} {r : Repertoire} {actions : List Action}
    (h : C113.Defined env r actions) (hpf : C14.PrefixFree r) (hu : Unconditional r) (hs : SymmetricR r)
    (ht : TransitiveR r) {hasDb : Bool} {refs : List Seq} (hne : [] ∉ refs) {l : Seq} (hl : l ≠ [])
    (ha : Accepted env r l) :
    ∃ xs, collisionMain env r actions hasDb false refs [l] = (xs, .ok ()) ∧
      ((∃ ref, CLine.collision l ref ∈ xs) ↔ ∃ ref ∈ refs, Accepted env r ref ∧ C18.VariantOf env r ref l) ∧
      (.noCollision l ∈ xs ↔ ¬ ∃ ref ∈ refs, Accepted env r ref ∧ C18.VariantOf env r ref l) := by
  obtain ⟨k, hk⟩ := (C17.index_total h.wf h.rules hl 0).2 ha
  obtain ⟨bs, h1, h2⟩ := main_partial h (hasDb := hasDb) (generate := false) (refs := refs) (labels := [l])
    (by simpa using ⟨k, hk⟩) (by simp)
  cases h2 with
  | cons hb htl =>
  cases htl
  rename_i b
  have hiff : (∃ ref ∈ refs, Accepted env r ref ∧ C18.VariantOf env r ref l) ↔
      ∃ ref ∈ refs, env.indexLabel r ref 0 = .ok k := by
    constructor
    · rintro ⟨ref, h3, h4, h5⟩
      have hr : ref ≠ [] := by rintro rfl; exact hne h3
      obtain ⟨i, hi⟩ := (C17.index_total h.wf h.rules hr 0).2 h4
      have := (C18.same_index_iff_variant_partial h.wf hpf hu hs ht h.rules hr hl h4 ha hi hk).2 h5
      exact ⟨ref, h3, this ▸ hi⟩
    · rintro ⟨ref, h3, h4⟩
      have hr : ref ≠ [] := by rintro rfl; exact hne h3
      have h5 := (C17.index_total h.wf h.rules hr 0).1 ⟨k, h4⟩
      exact ⟨ref, h3, h5, (C18.same_index_iff_variant_partial h.wf hpf hu hs ht h.rules hr hl h5 ha h4 hk).1 rfl⟩
  refine ⟨b, by simpa using h1, ?_⟩
  rw [hiff]
  cases hb with
  | noCollision k' hk' hn =>
    rw [hk] at hk'
    cases hk'
    constructor
    · constructor
      · rintro ⟨ref, hm⟩; simp at hm
      · rintro ⟨ref, h3, h4⟩; exact absurd h4 (hn ref h3)
    · constructor
      · rintro - ⟨ref, h3, h4⟩; exact hn ref h3 h4
      · intro _; simp
  | collision k' ref hg hk' hlast =>
    rw [hk] at hk'
    cases hk'
    have := last_exists.1 ⟨ref, hlast⟩
    constructor
    · exact ⟨fun _ => this, fun _ => ⟨ref, by simp⟩⟩
    · constructor
      · intro hm; simp at hm
      · intro hm; exact absurd this hm
  | blocked k' ref gs its hg => cases hg

/-- **C122** is violated: a label with a code point outside the LGR ends the tool, and the labels that follow are
not tested. -/
theorem unknown_wrong {env : FullEnv} {r : Repertoire} {actions : List Action} (h : C113.Defined env r actions)
    {hasDb generate : Bool} (refs : List Seq) {l : Seq} (hl : l ≠ []) (ha : ¬ Accepted env r l) (ls : List Seq) :
    ∃ s, collisionMain env r actions hasDb generate refs (l :: ls) = ([.check l], .error (.notInLGR s)) := by
  obtain ⟨d, hd⟩ := refs_returns (C121.index_defined h) refs []
  rcases hi : env.indexLabel r l 0 with e | k
  · obtain ⟨s, rfl⟩ := C121.index_defined h l e hi
    refine ⟨s, ?_⟩
    unfold collisionMain
    rw [hd]
    simp only
    unfold eachLabel collisionLabel
    rw [hi]
  · exact absurd ((C17.index_total h.wf h.rules hl 0).1 ⟨k, hi⟩) ha

/-! Examples -/

def rep2 : Repertoire := Repertoire.run {} [.addChar [1] {}, .addChar [2] {}, .addChar [3] {}, .addVariant [1] { cp := [2] },
  .addVariant [2] { cp := [1] }]

example : collisionMain C120.env1 rep2 [] true true [[3, 3], [1], [2]] [[1], [3], [9], [1]] =
    ([.check [1], .collision [1] [2], .block [2] [] (some "valid"), .block [1] [] (some "valid"),
      .check [3], .noCollision [3], .check [9]], .error (.notInLGR [9])) := by decide +kernel

end Lgr.Props.C122

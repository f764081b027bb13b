import Verif.Props.Diff

/-!
# C116: what `diff_lgr_sets` compares
-/

namespace Lgr.Props.C116
open Lgr LGR Repertoire C50 C26 Compare C30 Metadata Diff C115

/-! ## Specification -/

/-- The LGRs of a set for a script: those of which it is the first language. -/
def forScript (st : Nat → Doc) (l : List Nat) (s : String) : List Nat :=
  l.filter (fun d => decide ((st d).metadata.languages.head? = some s))

/-- The lines on a script of one set only. -/
def onlyOf (first : Bool) (t : String) : SetLine → Option (List String)
  | .onlyIn f u ns => if f = first ∧ u = t then some ns else none
  | _ => none

def metaOf : SetLine → Option Line
  | .metadata l => some l
  | _ => none

/-- The comparisons for a script. -/
def pairOf (t : String) : SetLine → Option (String × String × List Line)
  | .pair u a b l => if u = t then some (a, b, l) else none
  | _ => none

/-- What is written on the comparison of the two sets. -/
structure SetsReport (st : Nat → Doc) (md1 md2 : Metadata) (set1 set2 : List Nat) (s : Bool) (out : List SetLine) : Prop where
  /-- One line for each LGR of a script after the first one. -/
  duplicate1 : ∀ t, out.count (.duplicate true t) = (forScript st set1 t).length - 1
  duplicate2 : ∀ t, out.count (.duplicate false t) = (forScript st set2 t).length - 1
  /-- One line for each script of one set only, with the names of its LGRs. -/
  only1 : ∀ t, out.filterMap (onlyOf true t) =
    if forScript st set1 t ≠ [] ∧ forScript st set2 t = [] then [(forScript st set1 t).map (fun d => (st d).name)] else []
  only2 : ∀ t, out.filterMap (onlyOf false t) =
    if forScript st set2 t ≠ [] ∧ forScript st set1 t = [] then [(forScript st set2 t).map (fun d => (st d).name)] else []
  /-- Metadata are those of the merged LGRs; what is the same is never shown. -/
  metadata : MetaReport md1 md2 false (out.filterMap metaOf)
  /-- For each script, each LGR of the first set is compared with each one of the second set, in order. -/
  pairs : ∀ t, List.Forall₂
    (fun (p : Nat × Nat) (o : String × String × List Line) =>
      o.1 = (st p.1).name ∧ o.2.1 = (st p.2).name ∧ DiffReport (st p.1) (st p.2) s o.2.2)
    ((forScript st set1 t).product (forScript st set2 t))
    (out.filterMap (pairOf t))

/-- The hypotheses on an LGR. -/
structure Good (db : UniDb) (d : Doc) : Prop where
  wf : WF d.lgr.rep
  intact : Intact d.lgr.rep
  idna : AllIdna db d.lgr

/-- `d` is `d0` but for ranges, which may be expanded. -/
structure UpToRanges (d0 d : Doc) : Prop where
  doc : d = { d0 with lgr := d.lgr }
  refs : d.lgr.refs = d0.lgr.refs
  entries : ∀ k, (d.lgr.rep.lookup k).map C06.noRange = (d0.lgr.rep.lookup k).map C06.noRange

/-! ## Scripts -/

theorem forScript_cons (st : Nat → Doc) (d : Nat) (l : List Nat) (s : String) :
    forScript st (d :: l) s = if (st d).metadata.languages.head? = some s then d :: forScript st l s else forScript st l s := by
  unfold forScript
  by_cases h : (st d).metadata.languages.head? = some s <;> simp [h]

/-- The LGRs found so far for a script. -/
theorem getScripts_spec {st : Nat → Doc} {first : Bool} : ∀ (l : List Nat) (m : List (String × List Nat)),
    (m.map Prod.fst).Nodup → (∀ s, dget m s ≠ some []) →
    ((getScripts st first l m).1.map Prod.fst).Nodup ∧
    (∀ s, dget (getScripts st first l m).1 s ≠ some []) ∧
    (∀ s, (dget (getScripts st first l m).1 s).getD [] = (dget m s).getD [] ++ forScript st l s) ∧
    (∀ s, (getScripts st first l m).2.count (.duplicate first s) =
      ((dget m s).getD []).length + (forScript st l s).length - 1 - (((dget m s).getD []).length - 1)) ∧
    ∀ o ∈ (getScripts st first l m).2, ∃ s, o = .duplicate first s
  | [], m, h, h2 => by
    refine ⟨h, h2, fun s => by simp [getScripts, forScript], fun s => by simp [getScripts, forScript], ?_⟩
    simp [getScripts]
  | d :: l, m, h, h2 => by
    cases hl : (st d).metadata.languages with
    | nil =>
      have := getScripts_spec (st := st) (first := first) l m h h2
      have hf : ∀ s, forScript st (d :: l) s = forScript st l s := by
        intro s; rw [forScript_cons, hl]; simp
      unfold getScripts
      rw [hl]
      simp only [hf]
      exact this
    | cons t ts =>
      have hne : ∀ s, dget (dset m t ((dget m t).getD [] ++ [d])) s ≠ some [] := by
        intro s
        rw [dget_dset]
        split
        · simp
        · exact h2 s
      obtain ⟨i1, i2, i3, i4, i5⟩ := getScripts_spec (st := st) (first := first) l
        (dset m t ((dget m t).getD [] ++ [d])) (dset_nodup h _ _) hne
      have hf : ∀ s, forScript st (d :: l) s = if t = s then d :: forScript st l s else forScript st l s := by
        intro s; rw [forScript_cons, hl]; simp
      unfold getScripts
      rw [hl]
      dsimp only
      refine ⟨i1, i2, ?_, ?_, ?_⟩
      · intro s
        rw [i3, dget_dset, hf]
        by_cases hs : s = t
        · subst hs; simp
        · simp [hs, Ne.symm hs]
      · intro s
        rw [List.count_append, i4, dget_dset, hf]
        by_cases hs : s = t
        · subst hs
          cases hd : dget m s with
          | none => simp
          | some x =>
            have : x ≠ [] := fun e => h2 s (by rw [hd, e])
            have : 0 < x.length := List.length_pos_iff.2 this
            simp
            omega
        · have : List.count (SetLine.duplicate first s) (if (dget m t).isSome then [SetLine.duplicate first t] else []) = 0 := by
            rw [List.count_eq_zero]
            split <;> simp [hs]
          rw [this]
          simp [hs, Ne.symm hs]
      · intro o ho
        rw [List.mem_append] at ho
        rcases ho with ho | ho
        · split at ho
          · exact ⟨t, by simpa using ho⟩
          · simp at ho
        · exact i5 o ho

/-- The map of the scripts of a set. -/
theorem getScripts_all (st : Nat → Doc) (first : Bool) (l : List Nat) :
    ((getScripts st first l []).1.map Prod.fst).Nodup ∧
    (∀ s, (dget (getScripts st first l []).1 s).getD [] = forScript st l s) ∧
    (∀ s, s ∈ (getScripts st first l []).1.map Prod.fst ↔ forScript st l s ≠ []) ∧
    (∀ s, (getScripts st first l []).2.count (.duplicate first s) = (forScript st l s).length - 1) ∧
    ∀ o ∈ (getScripts st first l []).2, ∃ s, o = .duplicate first s := by
  obtain ⟨i1, i2, i3, i4, i5⟩ := getScripts_spec (st := st) (first := first) l [] (by simp) (by simp [dget])
  refine ⟨i1, fun s => by rw [i3]; simp [dget], ?_, fun s => by rw [i4]; simp [dget], i5⟩
  intro s
  have h3 := i3 s
  simp only [dget, Option.getD_none, List.nil_append] at h3
  rw [← h3]
  have hk := i2 s
  cases hd : dget (getScripts st first l []).1 s with
  | none =>
    simp only [Option.getD_none, ne_eq, not_true_eq_false, iff_false]
    exact dget_eq_none.1 hd
  | some x =>
    rw [hd] at hk
    simp only [Option.getD_some]
    refine ⟨fun _ e => hk (by rw [e]), fun _ => ?_⟩
    rw [← dget_isSome, hd]; rfl

/-! ## Ranges are expanded once -/

theorem expand_meaning {db : UniDb} {g e : LGR} (hwf : WF g.rep) (hi : Intact g.rep) (h : g.expandRanges db = (e, .ok ())) :
    e.rep.ranges = [] ∧ ∀ k c, e.rep.lookup k = some c → c.range = none := by
  obtain ⟨r', h1, h2, -, h4, -⟩ := C06.expand_ranges_meaning db g hwf hi (by rw [h])
  rw [h] at h1
  dsimp only at h1
  subst h1
  exact ⟨h2, h4⟩

/-- Expanding ranges a second time does nothing. -/
theorem expand_twice {db : UniDb} {g e : LGR} (hwf : WF g.rep) (hi : Intact g.rep)
    (h : g.expandRanges db = (e, .ok ())) : e.expandRanges db = (e, .ok ()) := by
  unfold LGR.expandRanges
  rw [(expand_meaning hwf hi h).1]
  rfl

theorem UpToRanges.refl (d : Doc) : UpToRanges d d := ⟨rfl, rfl, fun _ => rfl⟩

theorem noRange_twice (e : Option CharObj) : (e.map C06.noRange).map C06.noRange = e.map C06.noRange := by
  cases e <;> rfl

theorem noRange_back {e e' : Option CharObj} (h : e.map C06.noRange = e'.map C06.noRange) {c : CharObj} (hc : e = some c) :
    ∃ c', e' = some c' ∧ C06.noRange c' = C06.noRange c := by
  subst hc
  cases e' with
  | none => cases h
  | some c' => exact ⟨c', rfl, (Option.some.inj h).symm⟩

theorem noRange_attrs {c c' : CharObj} (h : C06.noRange c' = C06.noRange c) : c'.attrs = c.attrs ∧ c'.getVariants = c.getVariants := by
  have h1 : (C06.noRange c').attrs = (C06.noRange c).attrs := by rw [h]
  have h2 : (C06.noRange c').getVariants = (C06.noRange c).getVariants := by rw [h]
  exact ⟨h1, h2⟩

theorem noRange_same {c1 c2 c1' c2' : CharObj} (h1 : C06.noRange c1' = C06.noRange c1) (h2 : C06.noRange c2' = C06.noRange c2) :
    SameChar c1 c2 ↔ SameChar c1' c2' := by
  rw [← sameChar_noRange, ← h1, ← h2, sameChar_noRange]

theorem both {e1 e2 e1' e2' : Seq → Option CharObj} (h1 : ∀ k, (e1 k).map C06.noRange = (e1' k).map C06.noRange)
    (h2 : ∀ k, (e2 k).map C06.noRange = (e2' k).map C06.noRange) {P : CharObj → CharObj → Prop}
    (hP : ∀ c1 c2 c1' c2', C06.noRange c1' = C06.noRange c1 → C06.noRange c2' = C06.noRange c2 → P c1 c2 → P c1' c2')
    (k : Seq) (h : ∃ c1 c2, e1 k = some c1 ∧ e2 k = some c2 ∧ P c1 c2) :
    ∃ c1 c2, e1' k = some c1 ∧ e2' k = some c2 ∧ P c1 c2 := by
  obtain ⟨c1, c2, x1, x2, x3⟩ := h
  obtain ⟨c1', y1, z1⟩ := noRange_back (h1 k) x1
  obtain ⟨c2', y2, z2⟩ := noRange_back (h2 k) x2
  exact ⟨c1', c2', y1, y2, hP _ _ _ _ z1 z2 x3⟩

theorem RepReport.congr {e1 e2 e1' e2' : Seq → Option CharObj} {s : Bool} {out : List Line}
    (h : RepReport e1 e2 s out) (h1 : ∀ k, (e1 k).map C06.noRange = (e1' k).map C06.noRange)
    (h2 : ∀ k, (e2 k).map C06.noRange = (e2' k).map C06.noRange) : RepReport e1' e2' s out := by
  have some1 : ∀ k, (∃ c, e1 k = some c) ↔ ∃ c, e1' k = some c := by
    intro k
    have := h1 k
    cases hx : e1 k <;> cases hy : e1' k <;> rw [hx, hy] at this <;> simp at this ⊢
  have some2 : ∀ k, (∃ c, e2 k = some c) ↔ ∃ c, e2' k = some c := by
    intro k
    have := h2 k
    cases hx : e2 k <;> cases hy : e2' k <;> rw [hx, hy] at this <;> simp at this ⊢
  have b := fun (P : CharObj → CharObj → Prop) hP k => Iff.intro (both h1 h2 (P := P) hP k)
    (both (fun k => (h1 k).symm) (fun k => (h2 k).symm) (P := P) hP k)
  have hsame : ∀ c1 c2 c1' c2', C06.noRange c1' = C06.noRange c1 → C06.noRange c2' = C06.noRange c2 →
      SameChar c1 c2 → SameChar c1' c2' := fun c1 c2 c1' c2' z1 z2 => (noRange_same z1 z2).1
  refine ⟨h.repertoire.congr (fun v => ?_) (fun v => ?_), fun k => ?_, fun k c1 c2 x1 x2 => ?_, fun k c1 c2 x1 x2 => ?_,
    fun k c1 c2 x1 x2 => ?_, fun n => ?_⟩
  · refine exists_congr fun k => ?_
    rw [exists_and_right, exists_and_right, some1]
  · refine exists_congr fun k => ?_
    rw [exists_and_right, exists_and_right, some2]
  · rw [h.codePoint]
    refine b _ (fun c1 c2 c1' c2' z1 z2 hx => ?_) k
    rwa [← noRange_same z1 z2]
  · obtain ⟨c1', y1, z1⟩ := noRange_back (h1 k).symm x1
    obtain ⟨c2', y2, z2⟩ := noRange_back (h2 k).symm x2
    rw [← (noRange_attrs z1).1, ← (noRange_attrs z2).1]
    exact h.comment k c1' c2' y1 y2
  · obtain ⟨c1', y1, z1⟩ := noRange_back (h1 k).symm x1
    obtain ⟨c2', y2, z2⟩ := noRange_back (h2 k).symm x2
    rw [← (noRange_attrs z1).1, ← (noRange_attrs z2).1]
    exact h.tags k c1' c2' y1 y2
  · obtain ⟨c1', y1, z1⟩ := noRange_back (h1 k).symm x1
    obtain ⟨c2', y2, z2⟩ := noRange_back (h2 k).symm x2
    rw [← (noRange_attrs z1).2, ← (noRange_attrs z2).2]
    exact h.variants k c1' c2' y1 y2
  · rw [h.identical]
    refine and_congr_right fun _ => and_congr_right fun _ => exists_congr fun ks => and_congr_right fun _ =>
      and_congr_right fun _ => forall_congr' fun k => ?_
    rw [b _ hsame]

theorem DiffReport.congr {a b a' b' : Doc} {s : Bool} {out : List Line} (h : DiffReport a b s out)
    (h1 : UpToRanges a' a) (h2 : UpToRanges b' b) : DiffReport a' b' s out := by
  obtain ⟨d1, r1, e1⟩ := h1
  obtain ⟨d2, r2, e2⟩ := h2
  have hrep := RepReport.congr h.rep e1 e2
  have hrefs := h.references
  rw [r1, r2] at hrefs
  have hm := h.metadata
  have ha := h.actions
  have hr := h.rules
  have hc := h.classes
  rw [d1, d2] at hm ha hr hc
  exact ⟨hm, hrefs, hrep, ha, hr, hc⟩

/-! ## The loops -/

theorem good_expanded {db : UniDb} {d : Doc} (h : Good db d) {e : LGR} (he : d.lgr.expandRanges db = (e, .ok ())) :
    Good db { d with lgr := e } ∧ UpToRanges d { d with lgr := e } := by
  obtain ⟨e', x1, x2, x3, x4, x5⟩ := expands h.wf h.intact h.idna
  rw [he] at x1
  cases x1
  obtain ⟨y1, y2⟩ := expand_meaning h.wf h.intact he
  refine ⟨⟨x2, ⟨?_, ?_, ?_⟩, x5⟩, rfl, x3, fun k => ?_⟩
  · dsimp only; rw [y1]; simp
  · intro k c p hk hc
    rw [y2 k c hk] at hc; cases hc
  · dsimp only; rw [y1]; simp
  · dsimp only; rw [x4, noRange_twice]

theorem UpToRanges.trans {a b c : Doc} (h1 : UpToRanges a b) (h2 : UpToRanges b c) : UpToRanges a c := by
  obtain ⟨x1, x2, x3⟩ := h1
  obtain ⟨y1, y2, y3⟩ := h2
  refine ⟨?_, y2.trans x2, fun k => (y3 k).trans (x3 k)⟩
  rw [y1, x1]

/-- The contents at some moment: ranges of some LGRs are expanded. -/
def Now (db : Nat → UniDb) (I : List Nat) (st0 st : Nat → Doc) : Prop :=
  ∀ i ∈ I, Good (db i) (st i) ∧ UpToRanges (st0 i) (st i)

theorem diff_now {ord : Enum} {db : Nat → UniDb} {I : List Nat} {st0 st : Nat → Doc} {s : Bool} (h : Now db I st0 st)
    {i j : Nat} (hi : i ∈ I) (hj : j ∈ I) :
    ∃ gs out, diffLgrs ord (db i) (db j) (st i) (st j) s = (gs, .ok out) ∧ DiffReport (st0 i) (st0 j) s out ∧
      Now db I st0 (putBack st i j gs) := by
  obtain ⟨g1, u1⟩ := h i hi
  obtain ⟨g2, u2⟩ := h j hj
  obtain ⟨e1, e2, out, hd, hr, -⟩ := diff_lgrs_partial ord (db i) (db j) (st i) (st j) s g1.wf g2.wf g1.intact g2.intact
    g1.idna g2.idna
  have x1 : (st i).lgr.expandRanges (db i) = (e1, .ok ()) ∧ (st j).lgr.expandRanges (db j) = (e2, .ok ()) := by
    obtain ⟨f1, p1, -⟩ := expands g1.wf g1.intact g1.idna
    obtain ⟨f2, p2, -⟩ := expands g2.wf g2.intact g2.idna
    unfold diffLgrs at hd
    rw [p1] at hd
    dsimp only at hd
    rw [p2] at hd
    dsimp only at hd
    cases (congrArg Prod.fst hd)
    exact ⟨p1, p2⟩
  refine ⟨_, _, hd, DiffReport.congr hr u1 u2, ?_⟩
  intro k hk
  unfold putBack
  split
  · rename_i hkj
    subst hkj
    obtain ⟨y1, y2⟩ := good_expanded g2 x1.2
    exact ⟨y1, u2.trans y2⟩
  · split
    · rename_i hki
      subst hki
      obtain ⟨y1, y2⟩ := good_expanded g1 x1.1
      exact ⟨y1, u1.trans y2⟩
    · exact h k hk

theorem pairLoop_spec {ord : Enum} {db : Nat → UniDb} {I : List Nat} {st0 : Nat → Doc} {s : Bool} {t : String} :
    ∀ (ps : List (Nat × Nat)) (st : Nat → Doc), Now db I st0 st → (∀ p ∈ ps, p.1 ∈ I ∧ p.2 ∈ I) →
    ∃ st' out, pairLoop ord db s t st ps = (st', .ok out) ∧ Now db I st0 st' ∧
      List.Forall₂ (fun p o => ∃ l, o = .pair t (st0 p.1).name (st0 p.2).name l ∧ DiffReport (st0 p.1) (st0 p.2) s l) ps out
  | [], st, h, _ => ⟨st, [], rfl, h, .nil⟩
  | (i, j) :: ps, st, h, hp => by
    obtain ⟨gs, l, h1, h2, h3⟩ := diff_now (ord := ord) (s := s) h (hp (i, j) (by simp)).1 (hp (i, j) (by simp)).2
    obtain ⟨st', out, h4, h5, h6⟩ := pairLoop_spec (t := t) ps _ h3 (fun p hp' => hp p (by simp [hp']))
    refine ⟨st', .pair t (st0 i).name (st0 j).name l :: out, ?_, h5, .cons ⟨l, rfl, h2⟩ h6⟩
    have n1 : (st i).name = (st0 i).name := by rw [(h i (hp (i, j) (by simp)).1).2.doc]
    have n2 : (st j).name = (st0 j).name := by rw [(h j (hp (i, j) (by simp)).2).2.doc]
    unfold pairLoop
    rw [h1]
    dsimp only
    rw [h4, n1, n2]

theorem right_mem {α β : Type} {R : α → β → Prop} {l : List α} {r : List β} (h : List.Forall₂ R l r) {o : β} (ho : o ∈ r) :
    ∃ p ∈ l, R p o := by
  induction h with
  | nil => cases ho
  | cons hx _ ih =>
    rcases List.mem_cons.1 ho with rfl | ho
    · exact ⟨_, List.mem_cons_self, hx⟩
    · obtain ⟨p, hp, hr⟩ := ih ho
      exact ⟨p, List.mem_cons_of_mem _ hp, hr⟩

theorem pairs_of {st0 : Nat → Doc} {s : Bool} {t : String} {ps : List (Nat × Nat)} {out : List SetLine}
    (h : List.Forall₂ (fun p o => ∃ l, o = .pair t (st0 p.1).name (st0 p.2).name l ∧
      DiffReport (st0 p.1) (st0 p.2) s l) ps out) :
    List.Forall₂ (fun (p : Nat × Nat) (o : String × String × List Line) =>
      o.1 = (st0 p.1).name ∧ o.2.1 = (st0 p.2).name ∧ DiffReport (st0 p.1) (st0 p.2) s o.2.2) ps
      (out.filterMap (pairOf t)) := by
  induction h with
  | nil => exact .nil
  | @cons p o _ _ hx _ ih =>
    obtain ⟨l, rfl, hl⟩ := hx
    rw [List.filterMap_cons_some (b := ((st0 p.1).name, (st0 p.2).name, l)) (by simp [pairOf])]
    exact .cons ⟨rfl, rfl, hl⟩ ih

theorem scriptLoop_spec {ord : Enum} {db : Nat → UniDb} {I : List Nat} {st0 : Nat → Doc} {s : Bool}
    {m1 m2 : List (String × List Nat)} (hm1 : ∀ t, ∀ i ∈ (dget m1 t).getD [], i ∈ I)
    (hm2 : ∀ t, ∀ i ∈ (dget m2 t).getD [], i ∈ I) :
    ∀ (ts : List String) (st : Nat → Doc), Now db I st0 st → ts.Nodup →
    ∃ st' out, scriptLoop ord db s m1 m2 st ts = (st', .ok out) ∧ Now db I st0 st' ∧
      (∀ o ∈ out, ∃ t a b l, o = .pair t a b l) ∧
      ∀ t, List.Forall₂ (fun (p : Nat × Nat) (o : String × String × List Line) =>
          o.1 = (st0 p.1).name ∧ o.2.1 = (st0 p.2).name ∧ DiffReport (st0 p.1) (st0 p.2) s o.2.2)
        (if t ∈ ts then pairs ((dget m1 t).getD []) ((dget m2 t).getD []) else []) (out.filterMap (pairOf t))
  | [], st, h, _ => ⟨st, [], rfl, h, by simp, by simp⟩
  | u :: ts, st, h, hn => by
    obtain ⟨st1, o1, h1, h2, h3⟩ := pairLoop_spec (ord := ord) (s := s) (t := u)
      (pairs ((dget m1 u).getD []) ((dget m2 u).getD [])) st h (by
        rintro ⟨i, j⟩ hp
        unfold pairs at hp
        simp only [List.mem_flatMap, List.mem_map, Prod.mk.injEq] at hp
        obtain ⟨a, ha, b, hb, rfl, rfl⟩ := hp
        exact ⟨hm1 _ _ ha, hm2 _ _ hb⟩)
    obtain ⟨st2, o2, h4, h5, h6, h7⟩ := scriptLoop_spec hm1 hm2 ts st1 h2 (List.nodup_cons.1 hn).2
    refine ⟨st2, o1 ++ o2, ?_, h5, ?_, ?_⟩
    · unfold scriptLoop
      rw [h1]
      dsimp only
      rw [h4]
    · intro o ho
      rw [List.mem_append] at ho
      rcases ho with ho | ho
      · obtain ⟨p, -, l, rfl, -⟩ := right_mem h3 ho
        exact ⟨_, _, _, _, rfl⟩
      · exact h6 o ho
    · intro t
      have hno : u ∉ ts := (List.nodup_cons.1 hn).1
      rw [List.filterMap_append]
      by_cases ht : t = u
      · subst ht
        have := h7 t
        rw [if_neg hno] at this
        rw [List.forall₂_nil_left_iff.1 this, List.append_nil, if_pos (by simp)]
        exact pairs_of h3
      · have hz : o1.filterMap (pairOf t) = [] := by
          rw [List.filterMap_eq_nil_iff]
          intro o ho
          obtain ⟨p, -, l, rfl, -⟩ := right_mem h3 ho
          simp [pairOf, Ne.symm ht]
        rw [hz, List.nil_append]
        have := h7 t
        simpa [ht] using this

/-! ## The whole -/

theorem filter_only {P : String → Bool} {first : Bool} {t : String} {f : String → List String} : ∀ (l : List String), l.Nodup →
    (l.map (fun s => SetLine.onlyIn first s (f s))).filterMap (onlyOf first t) = if t ∈ l then [f t] else []
  | [], _ => by simp
  | u :: l, h => by
    obtain ⟨h1, h2⟩ := List.nodup_cons.1 h
    have ih := filter_only (P := P) (first := first) (t := t) (f := f) l h2
    by_cases hu : u = t
    · subst hu
      rw [if_neg h1] at ih
      rw [List.map_cons, List.filterMap_cons_some (b := f u) (by simp [onlyOf]), ih]
      simp
    · rw [List.map_cons, List.filterMap_cons_none (by simp [onlyOf, hu]), ih]
      simp [Ne.symm hu]

theorem only_spec {ord : Enum} {st : Nat → Doc} {first : Bool} {m1 m2 : List (String × List Nat)} {l1 l2 : List Nat}
    (n1 : (m1.map Prod.fst).Nodup) (g1 : ∀ s, (dget m1 s).getD [] = forScript st l1 s)
    (k1 : ∀ s, s ∈ m1.map Prod.fst ↔ forScript st l1 s ≠ []) (k2 : ∀ s, s ∈ m2.map Prod.fst ↔ forScript st l2 s ≠ []) (t : String) :
    (onlyLines ord st first m1 m2).filterMap (onlyOf first t) =
      if forScript st l1 t ≠ [] ∧ forScript st l2 t = [] then [(forScript st l1 t).map (fun d => (st d).name)] else [] := by
  unfold onlyLines
  rw [filter_only (P := fun _ => true) (f := fun s => ((dget m1 s).getD []).map (fun d => (st d).name)) _
    ((ord.strs_perm _).nodup_iff.2 (n1.filter _)), g1]
  have : t ∈ ord.strs ((m1.map Prod.fst).filter (fun s => decide (s ∉ m2.map Prod.fst))) ↔
      forScript st l1 t ≠ [] ∧ forScript st l2 t = [] := by
    rw [(ord.strs_perm _).mem_iff, List.mem_filter, decide_eq_true_eq, k1, k2, not_not]
  simp only [this]

theorem mem_onlyLines {ord : Enum} {st : Nat → Doc} {first : Bool} {m1 m2 : List (String × List Nat)} {o : SetLine}
    (h : o ∈ onlyLines ord st first m1 m2) : ∃ t ns, o = .onlyIn first t ns := by
  unfold onlyLines at h
  rw [List.mem_map] at h
  obtain ⟨t, -, rfl⟩ := h
  exact ⟨t, _, rfl⟩

theorem none_of {α : Type} {l : List SetLine} {f : SetLine → Option α} (h : ∀ o ∈ l, f o = none) : l.filterMap f = [] := by
  rw [List.filterMap_eq_nil_iff]; exact h

theorem meta_alone (ord : Enum) (h : String) (m1 m2 : Metadata) (s : Bool) : MetaReport m1 m2 s (diffMetadata ord h m1 m2 s) := by
  have key : ∀ o, (∀ h, o ≠ Line.heading h) → _ := fun o ho => by
    have := mem_diffMetadata (ord := ord) (h := h) (m1 := m1) (m2 := m2) (s := s) ho
    rw [mem_diffVersion ho, mem_diffDescription ho] at this
    simp only [mem_compareThings, mem_compareSets, or_assoc] at this
    exact this
  refine ⟨fun first what => ?_, fun a b h1 h2 => ⟨valReport (fun x y => ?_) (fun x => ?_), valReport (fun x y => ?_) (fun x => ?_)⟩,
    fun a b h1 h2 => ⟨valReport (fun x y => ?_) (fun x => ?_), valReport (fun x y => ?_) (fun x => ?_)⟩, ?_, ?_,
    valReport (fun x y => ?_) (fun x => ?_), valReport (fun x y => ?_) (fun x => ?_),
    valReport (fun x y => ?_) (fun x => ?_), valReport (fun x y => ?_) (fun x => ?_)⟩
  · rw [key _ (by simp)]
    cases first <;> simp <;> tauto
  · rw [key _ (by simp), mem_compareThings]; simp [h1, h2]
  · rw [key _ (by simp), mem_compareThings]; simp [h1, h2]
  · rw [key _ (by simp), mem_compareThings]; simp [h1, h2]
  · rw [key _ (by simp), mem_compareThings]; simp [h1, h2]
  · rw [key _ (by simp), mem_compareThings]; simp [h1, h2]
  · rw [key _ (by simp), mem_compareThings]; simp [h1, h2]
  · rw [key _ (by simp), mem_compareThings]; simp [h1, h2]
  · rw [key _ (by simp), mem_compareThings]; simp [h1, h2]
  · refine (setReport (ord := ord) (a := m1.scopes.map .scope) (b := m2.scopes.map .scope)
      (fun x y => ?_) (fun x => ?_)).congr (fun v => ?_) (fun v => ?_)
    · rw [key _ (by simp), mem_compareSets]; simp
    · rw [key _ (by simp), mem_compareSets]; simp
    · simp [eq_comm]
    · simp [eq_comm]
  · refine (setReport (ord := ord) (a := m1.languages.map (fun l => .str (some l)))
      (b := m2.languages.map (fun l => .str (some l))) (fun x y => ?_) (fun x => ?_)).congr
      (fun v => ?_) (fun v => ?_)
    · rw [key _ (by simp), mem_compareSets]; simp
    · rw [key _ (by simp), mem_compareSets]; simp
    · simp [eq_comm]
    · simp [eq_comm]
  · rw [key _ (by simp), mem_compareThings]; simp
  · rw [key _ (by simp), mem_compareThings]; simp
  · rw [key _ (by simp), mem_compareThings]; simp
  · rw [key _ (by simp), mem_compareThings]; simp
  · rw [key _ (by simp), mem_compareThings]; simp
  · rw [key _ (by simp), mem_compareThings]; simp
  · rw [key _ (by simp), mem_compareThings]; simp
  · rw [key _ (by simp), mem_compareThings]; simp

/-- **C116**, partial: `diff_lgr_sets` returns; it compares, for each script, each LGR of the first set having it as first
language with each one of the second set, and reports the scripts of one set only and those of several LGRs. The LGRs are
the same afterwards but for ranges. Missing: LGRs without language (`left_out_wrong`). -/
theorem diff_sets_partial (ord : Enum) (db : Nat → UniDb) (st : Nat → Doc) (md1 md2 : Metadata) (set1 set2 : List Nat)
    (s : Bool) (hg : ∀ i ∈ set1 ++ set2, Good (db i) (st i)) :
    ∃ st' out, diffSets ord db st md1 md2 set1 set2 s = (st', .ok out) ∧ SetsReport st md1 md2 set1 set2 s out ∧
      ∀ i ∈ set1 ++ set2, UpToRanges (st i) (st' i) := by
  obtain ⟨n1, g1, k1, c1, d1⟩ := getScripts_all st true set1
  obtain ⟨n2, g2, k2, c2, d2⟩ := getScripts_all st false set2
  have hsub : ∀ l t i, i ∈ forScript st l t → i ∈ l := by
    intro l t i h
    unfold forScript at h
    exact (List.mem_filter.1 h).1
  have hts : ∀ t, t ∈ ord.strs (((getScripts st true set1 []).1.map Prod.fst).filter
      (fun s => decide (s ∈ (getScripts st false set2 []).1.map Prod.fst))) ↔
      forScript st set1 t ≠ [] ∧ forScript st set2 t ≠ [] := by
    intro t
    rw [(ord.strs_perm _).mem_iff, List.mem_filter, decide_eq_true_eq, k1, k2]
  obtain ⟨st', ls, h1, h2, h3, h4⟩ := scriptLoop_spec (ord := ord) (db := db) (I := set1 ++ set2) (st0 := st) (s := s)
    (m1 := (getScripts st true set1 []).1) (m2 := (getScripts st false set2 []).1)
    (fun t i hi => by rw [g1] at hi; exact List.mem_append_left _ (hsub _ _ _ hi))
    (fun t i hi => by rw [g2] at hi; exact List.mem_append_right _ (hsub _ _ _ hi))
    (ord.strs (((getScripts st true set1 []).1.map Prod.fst).filter
      (fun s => decide (s ∈ (getScripts st false set2 []).1.map Prod.fst)))) st
    (fun i hi => ⟨hg i hi, .refl _⟩) ((ord.strs_perm _).nodup_iff.2 (n1.filter _))
  have o1 := only_spec (ord := ord) (first := true) n1 g1 k1 k2
  have o2 := only_spec (ord := ord) (first := false) n2 g2 k2 k1
  refine ⟨st', _, by unfold diffSets; dsimp only; rw [h1], ?_, fun i hi => (h2 i hi).2⟩
  have z1 : ∀ {α : Type} (f : SetLine → Option α) (b : Bool), (∀ t, f (.duplicate b t) = none) → ∀ (l : List SetLine),
      (∀ o ∈ l, ∃ t, o = .duplicate b t) → l.filterMap f = [] := by
    intro α f b hf l hl
    refine none_of fun o ho => ?_
    obtain ⟨t, rfl⟩ := hl o ho
    exact hf t
  have z2 : ∀ {α : Type} (f : SetLine → Option α) (b : Bool) m m', (∀ t ns, f (.onlyIn b t ns) = none) →
      (onlyLines ord st b m m').filterMap f = [] := by
    intro α f b m m' hf
    refine none_of fun o ho => ?_
    obtain ⟨t, ns, rfl⟩ := mem_onlyLines ho
    exact hf t ns
  have z3 : ∀ {α : Type} (f : SetLine → Option α) (l : List Line), (∀ x, f (.metadata x) = none) →
      (l.map SetLine.metadata).filterMap f = [] := by
    intro α f l hf
    refine none_of fun o ho => ?_
    obtain ⟨x, -, rfl⟩ := List.mem_map.1 ho
    exact hf x
  have z4 : ∀ {α : Type} (f : SetLine → Option α), (∀ t a b l, f (.pair t a b l) = none) → ls.filterMap f = [] := by
    intro α f hf
    refine none_of fun o ho => ?_
    obtain ⟨t, a, b, l, rfl⟩ := h3 o ho
    exact hf t a b l
  have y2 : ∀ b b' t m m', (onlyLines ord st b m m').count (.duplicate b' t) = 0 := by
    intro b b' t m m'
    rw [List.count_eq_zero]
    intro hm
    obtain ⟨_, _, h⟩ := mem_onlyLines hm
    cases h
  have y3 : ∀ b t (l : List Line), (l.map SetLine.metadata).count (.duplicate b t) = 0 := by
    intro b t l
    rw [List.count_eq_zero]
    intro hm
    obtain ⟨x, -, h⟩ := List.mem_map.1 hm
    cases h
  have y4 : ∀ b t, ls.count (.duplicate b t) = 0 := by
    intro b t
    rw [List.count_eq_zero]
    intro hm
    obtain ⟨_, _, _, _, h⟩ := h3 _ hm
    cases h
  have y1 : ∀ t, (getScripts st false set2 []).2.count (.duplicate true t) = 0 := by
    intro t
    rw [List.count_eq_zero]
    intro hm
    obtain ⟨_, h⟩ := d2 _ hm
    cases h
  have y1' : ∀ t, (getScripts st true set1 []).2.count (.duplicate false t) = 0 := by
    intro t
    rw [List.count_eq_zero]
    intro hm
    obtain ⟨_, h⟩ := d1 _ hm
    cases h
  refine ⟨fun t => ?_, fun t => ?_, fun t => ?_, fun t => ?_, ?_, fun t => ?_⟩
  · simp only [List.count_append, c1, y1, y2, y3, y4, Nat.add_zero]
  · simp only [List.count_append, c2, y1', y2, y3, y4, Nat.add_zero, Nat.zero_add]
  · simp only [List.filterMap_append]
    rw [z1 _ true (by simp [onlyOf]) _ d1, z1 _ false (by simp [onlyOf]) _ d2, o1, z2 _ false _ _ (by simp [onlyOf]),
      z3 _ _ (by simp [onlyOf]), z4 _ (by simp [onlyOf])]
    simp
  · simp only [List.filterMap_append]
    rw [z1 _ true (by simp [onlyOf]) _ d1, z1 _ false (by simp [onlyOf]) _ d2, o2, z2 _ true _ _ (by simp [onlyOf]),
      z3 _ _ (by simp [onlyOf]), z4 _ (by simp [onlyOf])]
    simp
  · simp only [List.filterMap_append]
    rw [z1 _ true (by simp [metaOf]) _ d1, z1 _ false (by simp [metaOf]) _ d2, z2 _ false _ _ (by simp [metaOf]),
      z2 _ true _ _ (by simp [metaOf]), z4 _ (by simp [metaOf])]
    have : ∀ l : List Line, (l.map SetLine.metadata).filterMap metaOf = l := by
      intro l
      induction l with
      | nil => rfl
      | cons x l ih => rw [List.map_cons, List.filterMap_cons_some (f := metaOf) (b := x) rfl, ih]
    rw [this]
    simpa using meta_alone ord _ md1 md2 false
  · simp only [List.filterMap_append]
    rw [z1 _ true (by simp [pairOf]) _ d1, z1 _ false (by simp [pairOf]) _ d2, z2 _ false _ _ (by simp [pairOf]),
      z2 _ true _ _ (by simp [pairOf]), z3 _ _ (by simp [pairOf])]
    have h := h4 t
    simp only [hts, g1, g2] at h
    have e : (if forScript st set1 t ≠ [] ∧ forScript st set2 t ≠ [] then pairs (forScript st set1 t) (forScript st set2 t)
        else []) = (forScript st set1 t).product (forScript st set2 t) := by
      split
      · rfl
      · rename_i hx
        rw [not_and_or, not_not, not_not] at hx
        rcases hx with hx | hx
        · rw [hx]; rfl
        · rw [hx]
          unfold List.product
          simp
    rw [e] at h
    simpa using h

/-! ## LGRs left out -/

/-- Each LGR of the first set appears, in a comparison or in a line on its script. -/
def AllShown : Prop :=
  ∀ (ord : Enum) (db : Nat → UniDb) (st : Nat → Doc) (md1 md2 : Metadata) (set1 set2 : List Nat) (s : Bool),
    (∀ i ∈ set1 ++ set2, Good (db i) (st i)) → ∀ st' out, diffSets ord db st md1 md2 set1 set2 s = (st', .ok out) →
    ∀ i ∈ set1, (∃ t b l, .pair t (st i).name b l ∈ out) ∨ ∃ t ns, .onlyIn true t ns ∈ out ∧ (st i).name ∈ ns

theorem empty_good (d : Doc) (h : d.lgr = {}) : Good none d := by
  refine ⟨by rw [h]; exact wf_empty, ?_, fun _ _ _ _ _ hv => by cases hv⟩
  rw [h]
  exact ⟨by simp, by intro k c p hk; exact absurd hk (by cases k <;> simp [Repertoire.lookup, bucket, dget]), by simp⟩

/-- **C116** is violated: an LGR without language is neither compared nor mentioned. -/
theorem left_out_wrong : ¬ AllShown := by
  intro h
  obtain ⟨st', out, h1, h2, -⟩ := diff_sets_partial inserted (fun _ => none) (fun _ => { name := "x" }) {} {} [0] [] false
    (fun i _ => empty_good _ rfl)
  have := h inserted (fun _ => none) (fun _ => { name := "x" }) {} {} [0] [] false (fun i _ => empty_good _ rfl) _ _ h1 0 (by simp)
  have hz : ∀ t, forScript (fun _ => { name := "x" }) [0] t = [] := fun t => rfl
  rcases this with ⟨t, b, l, hm⟩ | ⟨t, ns, hm, -⟩
  · have := h2.pairs t
    rw [hz] at this
    have := List.filterMap_eq_nil_iff.1 (List.forall₂_nil_left_iff.1 this) _ hm
    simp [pairOf] at this
  · have := h2.only1 t
    rw [hz] at this
    have := List.filterMap_eq_nil_iff.1 (this.trans (by simp)) _ hm
    simp [onlyOf] at this

/-- Two LGRs for the same script. -/
def two (i : Nat) : Doc :=
  { name := (if i = 0 then "x" else "y"), metadata := { languages := ["und-Latn"] } }

/-- The hypotheses are met: in two sets of one LGR for the same script, these are compared. -/
example : ∃ st' out l, diffSets inserted (fun _ => none) two {} {} [0] [1] false = (st', .ok out) ∧
    .pair "und-Latn" "x" "y" l ∈ out := by
  obtain ⟨st', out, h1, h2, -⟩ := diff_sets_partial inserted (fun _ => none) two {} {} [0] [1] false
    (fun i _ => empty_good _ rfl)
  have h := h2.pairs "und-Latn"
  have e : (forScript two [0] "und-Latn").product (forScript two [1] "und-Latn") = [(0, 1)] := by decide +kernel
  rw [e] at h
  obtain ⟨⟨a, b, l⟩, us, ⟨ha, hb, -⟩, -, ho⟩ := List.forall₂_cons_left_iff.1 h
  simp only [two, reduceIte, one_ne_zero] at ha hb
  subst ha; subst hb
  have hm : ("x", "y", l) ∈ out.filterMap (pairOf "und-Latn") := by rw [ho]; exact List.mem_cons_self
  rw [List.mem_filterMap] at hm
  obtain ⟨o, hm, he⟩ := hm
  refine ⟨st', out, l, h1, ?_⟩
  cases o with
  | pair u a b l' =>
    simp only [pairOf, Option.ite_none_right_eq_some, Option.some.injEq, Prod.mk.injEq] at he
    obtain ⟨rfl, rfl, rfl, rfl⟩ := he
    exact hm
  | _ => simp [pairOf] at he

end Lgr.Props.C116

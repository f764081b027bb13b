import Verif.Props.CollisionReports5

/-!
# C114: `diff` as a whole
-/

namespace Lgr.Props.C114
open Lgr Collisions LabelInput C32 C112 C113

theorem Compared.union {index1 index2 : Seq → Except Err Seq} {dispo1 dispo2 : Dispo} {quiet : Bool}
    {isLabel both : Seq → Prop} {f : Seq → List Line} {out : List Line}
    (h : ∀ l, both l → Compared index1 index2 dispo1 dispo2 quiet isLabel (· = l) (f l))
    (ho : ∀ o, o ∈ out ↔ ∃ l, both l ∧ o ∈ f l) : Compared index1 index2 dispo1 dispo2 quiet isLabel both out := by
  have key : ∀ (o : Line) (l : Seq) (Q : Prop), (∀ m, both m → (o ∈ f m ↔ l = m ∧ Q)) → (o ∈ out ↔ both l ∧ Q) := by
    intro o l Q hq
    rw [ho]
    constructor
    · rintro ⟨m, h1, h2⟩
      obtain ⟨rfl, h3⟩ := (hq m h1).1 h2
      exact ⟨h1, h3⟩
    · rintro ⟨h1, h2⟩; exact ⟨l, h1, (hq l h1).2 ⟨rfl, h2⟩⟩
  refine ⟨fun l => ?_, fun l c x s2 s1 rules => ?_, fun l => ?_, fun l c x => ?_, fun l s => ?_, fun l c x => ?_,
    fun l s => ?_, fun l => ?_⟩
  · have := key (.comparison l) l True (fun m hm => by rw [(h m hm).comparison]; simp)
    rw [this]; simp
  · exact key _ l _ (fun m hm => (h m hm).change l c x s2 s1 rules)
  · exact key _ l _ (fun m hm => (h m hm).noChange l)
  · exact key _ l _ (fun m hm => (h m hm).added l c x)
  · exact key _ l _ (fun m hm => (h m hm).addedRules l s)
  · exact key _ l _ (fun m hm => (h m hm).removed l c x)
  · exact key _ l _ (fun m hm => (h m hm).removedRules l s)
  · exact key _ l _ (fun m hm => (h m hm).sameVariants l)

/-! ## The labels compared -/

theorem indexBoth_spec {index1 index2 : Seq → Except Err Seq} : ∀ (labels : List Seq) (dic : List (Seq × Seq × Seq)),
    Indexes index1 (· ∈ labels) → Indexes index2 (· ∈ labels) → (dic.map Prod.fst).Nodup →
    (∀ l v, dget dic l = some v → index1 l = .ok v.1 ∧ index2 l = .ok v.2) →
    ∃ ls dic', indexBoth index1 index2 labels dic = (say ls, dic') ∧ (dic'.map Prod.fst).Nodup ∧
      (∀ l v, dget dic' l = some v ↔ (index1 l = .ok v.1 ∧ index2 l = .ok v.2) ∧ (l ∈ labels ∨ dget dic l = some v)) ∧
      (∀ o, o ∈ ls ↔ (∃ l ∈ labels, (∃ s, index1 l = .error (.notInLGR s)) ∧ o = .skipped 1 l) ∨
        ∃ l ∈ labels, (∃ k, index1 l = .ok k) ∧ (∃ s, index2 l = .error (.notInLGR s)) ∧ o = .skipped 2 l)
  | [], dic, _, _, hn, hd => ⟨[], dic, rfl, hn, fun l v => by
      simp only [List.not_mem_nil, false_or]
      exact ⟨fun h => ⟨hd l v h, h⟩, And.right⟩, by simp⟩
  | a :: labels, dic, h1, h2, hn, hd => by
    have r1 : Indexes index1 (· ∈ labels) := fun l hl => h1 l (List.mem_cons_of_mem _ hl)
    have r2 : Indexes index2 (· ∈ labels) := fun l hl => h2 l (List.mem_cons_of_mem _ hl)
    unfold indexBoth
    rcases e1 : index1 a with e | k1
    · obtain ⟨s, rfl⟩ := h1 a (by simp) e e1
      obtain ⟨ls, dic', i1, i2, i3, i4⟩ := indexBoth_spec labels dic r1 r2 hn hd
      refine ⟨.skipped 1 a :: ls, dic', by simp [i1, say, Report.next], i2, fun l v => ?_, fun o => ?_⟩
      · rw [i3, List.mem_cons]
        constructor
        · rintro ⟨h3, h4⟩; exact ⟨h3, h4.imp .inr id⟩
        · rintro ⟨h3, (rfl | h4) | h4⟩
          · rw [e1] at h3; cases h3.1
          · exact ⟨h3, .inl h4⟩
          · exact ⟨h3, .inr h4⟩
      · rw [List.mem_cons, i4]
        constructor
        · rintro (rfl | ⟨l, h3, h4⟩ | ⟨l, h3, h4⟩)
          · exact .inl ⟨a, by simp, ⟨s, e1⟩, rfl⟩
          · exact .inl ⟨l, by simp [h3], h4⟩
          · exact .inr ⟨l, by simp [h3], h4⟩
        · rintro (⟨l, h3, h4⟩ | ⟨l, h3, h4⟩)
          · rcases List.mem_cons.1 h3 with rfl | h3
            · exact .inl h4.2
            · exact .inr (.inl ⟨l, h3, h4⟩)
          · rcases List.mem_cons.1 h3 with rfl | h3
            · obtain ⟨⟨k, hk⟩, -⟩ := h4
              rw [e1] at hk; cases hk
            · exact .inr (.inr ⟨l, h3, h4⟩)
    · rcases e2 : index2 a with e | k2
      · obtain ⟨s, rfl⟩ := h2 a (by simp) e e2
        obtain ⟨ls, dic', i1, i2, i3, i4⟩ := indexBoth_spec labels dic r1 r2 hn hd
        refine ⟨.skipped 2 a :: ls, dic', by simp [i1, say, Report.next], i2, fun l v => ?_, fun o => ?_⟩
        · rw [i3, List.mem_cons]
          constructor
          · rintro ⟨h3, h4⟩; exact ⟨h3, h4.imp .inr id⟩
          · rintro ⟨h3, (rfl | h4) | h4⟩
            · rw [e2] at h3; cases h3.2
            · exact ⟨h3, .inl h4⟩
            · exact ⟨h3, .inr h4⟩
        · rw [List.mem_cons, i4]
          constructor
          · rintro (rfl | ⟨l, h3, h4⟩ | ⟨l, h3, h4⟩)
            · exact .inr ⟨a, by simp, ⟨k1, e1⟩, ⟨s, e2⟩, rfl⟩
            · exact .inl ⟨l, by simp [h3], h4⟩
            · exact .inr ⟨l, by simp [h3], h4⟩
          · rintro (⟨l, h3, h4⟩ | ⟨l, h3, h4⟩)
            · rcases List.mem_cons.1 h3 with rfl | h3
              · obtain ⟨⟨k, hk⟩, -⟩ := h4
                rw [e1] at hk; cases hk
              · exact .inr (.inl ⟨l, h3, h4⟩)
            · rcases List.mem_cons.1 h3 with rfl | h3
              · exact .inl h4.2.2
              · exact .inr (.inr ⟨l, h3, h4⟩)
      · obtain ⟨ls, dic', i1, i2, i3, i4⟩ := indexBoth_spec labels (dset dic a (k1, k2)) r1 r2 (dset_nodup hn _ _) (by
          intro l v hv
          rw [dget_dset] at hv
          by_cases hal : a = l
          · rw [if_pos hal] at hv
            cases hv
            subst hal
            exact ⟨e1, e2⟩
          · rw [if_neg hal] at hv
            exact hd l v hv)
        refine ⟨ls, dic', i1, i2, fun l v => ?_, fun o => ?_⟩
        · rw [i3, dget_dset, List.mem_cons]
          by_cases hal : a = l
          · subst hal
            simp only [if_true, true_or, and_true, e1, e2, Except.ok.injEq, Option.some.injEq]
            constructor
            · exact And.left
            · rintro ⟨rfl, rfl⟩; exact ⟨⟨rfl, rfl⟩, .inr rfl⟩
          · have : l ≠ a := fun h => hal h.symm
            simp [hal, this]
        · rw [i4]
          constructor
          · rintro (⟨l, h3, h4⟩ | ⟨l, h3, h4⟩)
            · exact .inl ⟨l, by simp [h3], h4⟩
            · exact .inr ⟨l, by simp [h3], h4⟩
          · rintro (⟨l, h3, h4⟩ | ⟨l, h3, h4⟩)
            · rcases List.mem_cons.1 h3 with rfl | h3
              · obtain ⟨⟨k, hk⟩, -⟩ := h4
                rw [e1] at hk; cases hk
              · exact .inl ⟨l, h3, h4⟩
            · rcases List.mem_cons.1 h3 with rfl | h3
              · obtain ⟨-, ⟨k, hk⟩, -⟩ := h4
                rw [e2] at hk; cases hk
              · exact .inr ⟨l, h3, h4⟩

/-! ## The comparison -/

theorem grp_of {index : Seq → Except Err Seq} {dispo : Dispo} {labels : List Seq} {quiet : Bool}
    (hd : Lists dispo quiet (fun _ => True)) {d : Collisions.Indexes} {n : List Seq} (hl : labels.Nodup)
    (h : generateIndexes index dispo labels [] true quiet [] = .ok (d, n)) {l k : Seq} (hlm : l ∈ labels)
    (hk : index l = .ok k) :
    ∃ es, dget d k = some es ∧
      ((∀ e ∈ es, (dget e.info l).isSome = true) ↔ MutualFor index dispo quiet (· ∈ labels) l) ∧
      (MutualFor index dispo quiet (· ∈ labels) l → Grp index dispo quiet (· ∈ labels) l es) := by
  have hg := groups_of hl (by simp) h
  obtain ⟨es, hes⟩ := (hg.there k).2 (.inl ⟨rfl, l, .inl hlm, hk⟩)
  have hsame : ∀ q, Same index l q ↔ index q = .ok k := by
    intro q
    constructor
    · rintro ⟨k', h1, h2⟩
      rw [hk] at h1
      cases h1
      exact h2
    · exact fun h1 => ⟨k, hk, h1⟩
  obtain ⟨g1, g2, g3⟩ := group_info hd hl (by simp) h hes
  have hmut : MutualFor index dispo quiet (· ∈ labels) l ↔ ∀ q, (q ∈ labels ∨ q ∈ []) → index q = .ok k →
      ∀ x ∈ (computed dispo quiet q).map Prod.fst, x ∈ (computed dispo quiet l).map Prod.fst := by
    unfold MutualFor
    simp only [hsame, List.not_mem_nil, or_false]
  refine ⟨es, hes, ?_, fun hm => ⟨hd.once l trivial, fun x => ?_, fun e he => g2 e he l (.inl hlm) hk, fun e he => ?_⟩⟩
  · rw [hmut]
    exact known_iff hd hl (by simp) h hes hlm hk
  · rw [g1]
    constructor
    · rintro ⟨q, h1, h2, h3⟩; exact (hmut.1 hm) q h1 h2 x h3
    · exact fun hx => ⟨l, .inl hlm, hk, hx⟩
  · obtain ⟨c1, c2⟩ := g3 e he
    unfold Called
    rw [hsame]
    simp only [List.not_mem_nil, or_false] at c1
    by_cases hv : e.cat = .variant
    · exact .inr ⟨hv, c1.1 hv⟩
    · left
      have hy : e.cp ∈ labels ∧ index e.cp = .ok k := by
        by_contra hn; exact hv (c1.2 hn)
      refine ⟨?_, hy⟩
      rcases c2 hv with c | c
      · exact c.2
      · simp at c

theorem compare_spec {index1 index2 : Seq → Except Err Seq} {dispo1 dispo2 : Dispo} {labels : List Seq} {quiet : Bool}
    (hd1 : Lists dispo1 quiet (fun _ => True)) (hd2 : Lists dispo2 quiet (fun _ => True))
    {d1 d2 : Collisions.Indexes} {n1 n2 : List Seq} (hl : labels.Nodup)
    (h1 : generateIndexes index1 dispo1 labels [] true quiet [] = .ok (d1, n1))
    (h2 : generateIndexes index2 dispo2 labels [] true quiet [] = .ok (d2, n2))
    {dic : List (Seq × Seq × Seq)} (hdn : (dic.map Prod.fst).Nodup)
    (hdic : ∀ l v, dget dic l = some v ↔ (index1 l = .ok v.1 ∧ index2 l = .ok v.2) ∧ l ∈ labels) :
    ((∀ l, (l ∈ labels ∧ (∃ k, index1 l = .ok k) ∧ ∃ k, index2 l = .ok k) →
        MutualFor index1 dispo1 quiet (· ∈ labels) l ∧ MutualFor index2 dispo2 quiet (· ∈ labels) l) →
      (compare d1 d2 dic).2 = .ok () ∧ Compared index1 index2 dispo1 dispo2 quiet (· ∈ labels)
        (fun l => l ∈ labels ∧ (∃ k, index1 l = .ok k) ∧ ∃ k, index2 l = .ok k) (compare d1 d2 dic).1) ∧
    ((¬ ∀ l, (l ∈ labels ∧ (∃ k, index1 l = .ok k) ∧ ∃ k, index2 l = .ok k) →
        MutualFor index1 dispo1 quiet (· ∈ labels) l ∧ MutualFor index2 dispo2 quiet (· ∈ labels) l) →
      (compare d1 d2 dic).2 = .error .invalidSymmetry) := by
  have hmem : ∀ v : Seq × Seq × Seq, v ∈ dic ↔ (index1 v.1 = .ok v.2.1 ∧ index2 v.1 = .ok v.2.2) ∧ v.1 ∈ labels := by
    intro v
    rw [← hdic v.1 v.2]
    exact ⟨fun h => dget_of_mem hdn h, fun h => mem_of_dget h⟩
  have hstep : ∀ l k1 k2, l ∈ labels → index1 l = .ok k1 → index2 l = .ok k2 →
      ∃ es1 es2, compareStep d1 d2 (l, k1, k2) = compareOne l es1 es2 ∧
        ((compareOne l es1 es2).2 = .ok () ↔
          MutualFor index1 dispo1 quiet (· ∈ labels) l ∧ MutualFor index2 dispo2 quiet (· ∈ labels) l) ∧
        (MutualFor index1 dispo1 quiet (· ∈ labels) l → MutualFor index2 dispo2 quiet (· ∈ labels) l →
          Compared index1 index2 dispo1 dispo2 quiet (· ∈ labels) (· = l) (compareOne l es1 es2).1) := by
    intro l k1 k2 hlm i1 i2
    obtain ⟨es1, a1, a2, a3⟩ := grp_of hd1 hl h1 hlm i1
    obtain ⟨es2, b1, b2, b3⟩ := grp_of hd2 hl h2 hlm i2
    have hok : (compareOne l es1 es2).2 = .ok () ↔
        MutualFor index1 dispo1 quiet (· ∈ labels) l ∧ MutualFor index2 dispo2 quiet (· ∈ labels) l := by
      rw [compareOne_ok_iff, a2, b2]
    refine ⟨es1, es2, ?_, hok, fun m1 m2 => compareOne_compared (hok.2 ⟨m1, m2⟩) (a3 m1) (b3 m2)⟩
    unfold compareStep
    simp only [a1, b1]
  constructor
  · intro hm
    have hok : (compare d1 d2 dic).2 = .ok () := by
      unfold Collisions.compare
      rw [eachR_ok_iff]
      rintro ⟨l, k1, k2⟩ hv
      obtain ⟨⟨i1, i2⟩, hlm⟩ := (hmem _).1 hv
      obtain ⟨es1, es2, s1, s2, -⟩ := hstep l k1 k2 hlm i1 i2
      rw [s1]
      exact s2.2 (hm l ⟨hlm, ⟨k1, i1⟩, ⟨k2, i2⟩⟩)
    refine ⟨hok, ?_⟩
    refine Compared.union (f := fun l => match index1 l, index2 l with
      | .ok k1, .ok k2 => (compareStep d1 d2 (l, k1, k2)).1
      | _, _ => []) ?_ ?_
    · rintro l ⟨hlm, ⟨k1, i1⟩, k2, i2⟩
      obtain ⟨es1, es2, s1, -, s3⟩ := hstep l k1 k2 hlm i1 i2
      obtain ⟨m1, m2⟩ := hm l ⟨hlm, ⟨k1, i1⟩, ⟨k2, i2⟩⟩
      simp only [i1, i2, s1]
      exact s3 m1 m2
    · intro o
      unfold Collisions.compare at hok ⊢
      rw [eachR_mem_ok hok]
      constructor
      · rintro ⟨⟨l, k1, k2⟩, hv, ho⟩
        obtain ⟨⟨i1, i2⟩, hlm⟩ := (hmem _).1 hv
        simp only at i1 i2 hlm
        exact ⟨l, ⟨hlm, ⟨k1, i1⟩, ⟨k2, i2⟩⟩, by simp only [i1, i2]; exact ho⟩
      · rintro ⟨l, ⟨hlm, ⟨k1, i1⟩, k2, i2⟩, ho⟩
        simp only [i1, i2] at ho
        exact ⟨(l, k1, k2), (hmem _).2 ⟨⟨i1, i2⟩, hlm⟩, ho⟩
  · intro hm
    have hsym : Sym (compare d1 d2 dic) := by
      apply Sym.each
      rintro ⟨l, k1, k2⟩ hv
      obtain ⟨⟨i1, i2⟩, hlm⟩ := (hmem _).1 hv
      obtain ⟨es1, es2, s1, -⟩ := hstep l k1 k2 hlm i1 i2
      rw [s1]
      exact compareOne_sym l es1 es2
    refine hsym.error (fun hok => hm ?_)
    unfold Collisions.compare at hok
    rw [eachR_ok_iff] at hok
    rintro l ⟨hlm, ⟨k1, i1⟩, k2, i2⟩
    obtain ⟨es1, es2, s1, s2, -⟩ := hstep l k1 k2 hlm i1 i2
    have := hok (l, k1, k2) ((hmem _).2 ⟨⟨i1, i2⟩, hlm⟩)
    rw [s1] at this
    exact s2.1 this

/-! ## The report -/

/-- The lines before the comparison. -/
structure Before (index1 index2 : Seq → Except Err Seq) (rs : List Read) (out : List Line) : Prop where
  labelError : ∀ x, .labelError x ∈ out ↔ Broken rs x
  notIn : ∀ n x, .notIn n x ∈ out ↔ Input rs x ∧
    ((n = 1 ∧ ∃ s, index1 x = .error (.notInLGR s)) ∨ (n = 2 ∧ ∃ s, index2 x = .error (.notInLGR s)))
  skipped : ∀ n x, .skipped n x ∈ out ↔ Input rs x ∧
    ((n = 1 ∧ ∃ s, index1 x = .error (.notInLGR s)) ∨
      (n = 2 ∧ (∃ k, index1 x = .ok k) ∧ ∃ s, index2 x = .error (.notInLGR s)))
  /-- There are no other lines, except headings. -/
  early : ∀ o ∈ out, Early o

/-- No TLDs. -/
def NoTld (_ : Seq) : Prop := False

/-- The variants of a label which are labels have its index. -/
def Coherent (index : Seq → Except Err Seq) (dispo : Dispo) (quiet : Bool) (rs : List Read) : Prop :=
  ∀ q k, Input rs q → index q = .ok k → ∀ v ∈ computed dispo quiet q, Input rs v.1 → index v.1 = .ok k

/-- What `diff` writes, in five cases: labels of the same index without the same variants, the comparison only,
with collisions, and with collisions and dumps, which fail or not. -/
structure DiffOk (order : List Seq → List Seq) (lower : String → String) (index1 index2 : Seq → Except Err Seq)
    (dispo1 dispo2 : Dispo) (rs : List Read) (quiet : Bool) : Prop where
  asymmetric : (¬ ∀ l, InBoth index1 index2 rs l →
      MutualFor index1 dispo1 quiet (Input rs) l ∧ MutualFor index2 dispo2 quiet (Input rs) l) →
    ∀ showCollision showDump, (diff order lower index1 index2 dispo1 dispo2 rs showCollision showDump quiet).2 =
      .error .invalidSymmetry
  compared : (∀ l, InBoth index1 index2 rs l →
      MutualFor index1 dispo1 quiet (Input rs) l ∧ MutualFor index2 dispo2 quiet (Input rs) l) →
    ∃ pre cmp, Before index1 index2 rs pre ∧
      Compared index1 index2 dispo1 dispo2 quiet (Input rs) (InBoth index1 index2 rs) cmp ∧
      (∀ showDump, diff order lower index1 index2 dispo1 dispo2 rs false showDump quiet = (pre ++ cmp, .ok ())) ∧
      (Coherent index1 dispo1 quiet rs → Coherent index2 dispo2 quiet rs →
        ∃ c1 c2, Reported index1 (Input rs) NoTld true c1 ∧ Reported index2 (Input rs) NoTld true c2 ∧
          diff order lower index1 index2 dispo1 dispo2 rs true false quiet =
            (pre ++ cmp ++ .text "Collisions for LGR1" :: c1 ++ .text "Collisions for LGR2" :: c2, .ok ()) ∧
          (Mutual index1 dispo1 quiet (Input rs) NoTld → Mutual index2 dispo2 quiet (Input rs) NoTld →
            ∃ s1 s2, Dumped index1 dispo1 lower quiet (Input rs) NoTld s1 ∧
              Dumped index2 dispo2 lower quiet (Input rs) NoTld s2 ∧
              diff order lower index1 index2 dispo1 dispo2 rs true true quiet =
                (pre ++ cmp ++ .text "Collisions for LGR1" :: c1 ++ .text "Summary for LGR1" :: s1 ++
                  .text "Collisions for LGR2" :: c2 ++ .text "Summary for LGR2" :: s2, .ok ()))) ∧
      (¬ (Mutual index1 dispo1 quiet (Input rs) NoTld ∧ Mutual index2 dispo2 quiet (Input rs) NoTld) →
        (diff order lower index1 index2 dispo1 dispo2 rs true true quiet).2 = .error .invalidSymmetry)

/-- `diff`, when dispositions can be computed for all labels. -/
theorem diff_global (order : List Seq → List Seq) (ho : Order order) (lower : String → String)
    (index1 index2 : Seq → Except Err Seq) (dispo1 dispo2 : Dispo)
    (hok1 : ∀ b l w, (dispo1 b l w).2 = .ok ()) (hok2 : ∀ b l w, (dispo2 b l w).2 = .ok ())
    (rs : List Read) (quiet : Bool)
    (hd1 : Lists dispo1 quiet (fun _ => True)) (hd2 : Lists dispo2 quiet (fun _ => True))
    (hidx1 : Indexes index1 (Input rs)) (hidx2 : Indexes index2 (Input rs)) :
    DiffOk order lower index1 index2 dispo1 dispo2 rs quiet := by
  have hl : (order (validLabels rs)).Nodup := ho.nodup _
  have ml : ∀ x, x ∈ order (validLabels rs) ↔ Input rs x := fun x => by rw [ho.mem, mem_validLabels]
  have hgo : ∀ a b, diff order lower index1 index2 dispo1 dispo2 rs a b quiet =
      diff order lower index1 index2 dispo1 dispo2 rs a b quiet := fun _ _ => rfl
  conv at hgo =>
    intro a b
    rhs
    unfold diff
  dsimp only at hgo
  generalize order (validLabels rs) = labels at *
  have eL : (fun x => x ∈ labels) = Input rs := funext fun x => propext (ml x)
  have eT : (fun x : Seq => x ∈ ([] : List Seq)) = NoTld := funext fun x => propext (by simp [NoTld])
  obtain ⟨d1, n1, g1⟩ := generate_returns (dispo := dispo1) (index := index1) (tlds := []) true quiet hl (by simp)
    (fun l h => hidx1 l ((ml l).1 (h.resolve_right (by simp)))) (.inr hok1)
  obtain ⟨d2, n2, g2⟩ := generate_returns (dispo := dispo2) (index := index2) (tlds := []) true quiet hl (by simp)
    (fun l h => hidx2 l ((ml l).1 (h.resolve_right (by simp)))) (.inr hok2)
  have hn1 := fun x => not_in_lgr_exact index1 dispo1 _ _ true quiet [] d1 n1 g1 x
  have hn2 := fun x => not_in_lgr_exact index2 dispo2 _ _ true quiet [] d2 n2 g2 x
  simp only [ml, List.not_mem_nil, or_false] at hn1 hn2
  obtain ⟨sk, dic, b1, b2, b3, b4⟩ := indexBoth_spec (index1 := index1) (index2 := index2) labels []
    (fun l h => hidx1 l ((ml l).1 h)) (fun l h => hidx2 l ((ml l).1 h)) (by simp) (by simp [dget])
  obtain ⟨c1, c2⟩ := compare_spec hd1 hd2 hl g1 g2 (dic := dic) b2 (fun l v => by rw [b3 l v]; simp [dget])
  have eB : (fun l => l ∈ labels ∧ (∃ k, index1 l = .ok k) ∧ ∃ k, index2 l = .ok k) = InBoth index1 index2 rs :=
    funext fun l => propext (by rw [ml]; rfl)
  have hB : ∀ l, (l ∈ labels ∧ (∃ k, index1 l = .ok k) ∧ ∃ k, index2 l = .ok k) ↔ InBoth index1 index2 rs l :=
    fun l => by rw [ml]; rfl
  rw [eB, eL] at c1
  rw [eL] at c2
  simp only [hB] at c1 c2
  simp only [g1, g2, b1] at hgo
  -- the lines before the comparison
  obtain ⟨pre, hpre, hbef⟩ : ∃ pre : List Line, pre = (badLabels rs).map .labelError ++
      ((if n1 = [] ∧ n2 = [] then [] else [Line.text "Labels not in LGR 1"] ++ n1.map (.notIn 1) ++
        [.text "Labels not in LGR 2"] ++ n2.map (.notIn 2)) ++ ([.text "LGR comparison"] ++ sk)) ∧
      Before index1 index2 rs pre := by
    have hif : ∀ o, o ∈ (if n1 = [] ∧ n2 = [] then [] else [Line.text "Labels not in LGR 1"] ++ n1.map (.notIn 1) ++
        [.text "Labels not in LGR 2"] ++ n2.map (.notIn 2)) ↔
        ((¬ (n1 = [] ∧ n2 = [])) ∧ (o = .text "Labels not in LGR 1" ∨ o = .text "Labels not in LGR 2")) ∨
          (∃ x ∈ n1, o = .notIn 1 x) ∨ ∃ x ∈ n2, o = .notIn 2 x := by
      intro o
      split
      · rename_i h; simp [h.1, h.2]
      · rename_i h
        simp only [List.mem_append, List.mem_singleton, List.mem_map, h, not_false_eq_true, true_and]
        constructor
        · rintro (((h | ⟨x, hx, rfl⟩) | h) | ⟨x, hx, rfl⟩)
          · exact .inl (.inl h)
          · exact .inr (.inl ⟨x, hx, rfl⟩)
          · exact .inl (.inr h)
          · exact .inr (.inr ⟨x, hx, rfl⟩)
        · rintro ((h | h) | ⟨x, hx, rfl⟩ | ⟨x, hx, rfl⟩)
          · exact .inl (.inl (.inl h))
          · exact .inl (.inr h)
          · exact .inl (.inl (.inr ⟨x, hx, rfl⟩))
          · exact .inr ⟨x, hx, rfl⟩
    refine ⟨_, rfl, ⟨fun x => ?_, fun n x => ?_, fun n x => ?_, fun o hO => ?_⟩⟩
    · simp only [List.mem_append, hif, b4, List.mem_map, mem_badLabels]
      simp
    · simp only [List.mem_append, hif, b4, List.mem_map, mem_badLabels]
      simp only [reduceCtorEq, and_false, exists_false, or_self, List.mem_singleton, false_or, or_false,
        Line.notIn.injEq]
      constructor
      · rintro (⟨y, hy, rfl, rfl⟩ | ⟨y, hy, rfl, rfl⟩)
        · have := (hn1 x).1 hy; exact ⟨this.1, .inl ⟨rfl, this.2⟩⟩
        · have := (hn2 x).1 hy; exact ⟨this.1, .inr ⟨rfl, this.2⟩⟩
      · rintro ⟨h1, ⟨rfl, h2⟩ | ⟨rfl, h2⟩⟩
        · exact .inl ⟨x, (hn1 x).2 ⟨h1, h2⟩, rfl, rfl⟩
        · exact .inr ⟨x, (hn2 x).2 ⟨h1, h2⟩, rfl, rfl⟩
    · simp only [List.mem_append, hif, b4, List.mem_map, mem_badLabels]
      simp only [reduceCtorEq, and_false, exists_false, or_self, List.mem_singleton, false_or, or_false,
        Line.skipped.injEq]
      constructor
      · rintro (⟨y, hy, h1, rfl, rfl⟩ | ⟨y, hy, h1, h2, rfl, rfl⟩)
        · exact ⟨(ml _).1 hy, .inl ⟨rfl, h1⟩⟩
        · exact ⟨(ml _).1 hy, .inr ⟨rfl, h1, h2⟩⟩
      · rintro ⟨h1, ⟨rfl, h2⟩ | ⟨rfl, h2, h3⟩⟩
        · exact .inl ⟨x, (ml _).2 h1, h2, rfl, rfl⟩
        · exact .inr ⟨x, (ml _).2 h1, h2, h3, rfl, rfl⟩
    · simp only [List.mem_append, hif, b4, List.mem_map, List.mem_singleton] at hO
      rcases hO with ⟨x, -, rfl⟩ | ((⟨-, rfl | rfl⟩ | ⟨x, -, rfl⟩ | ⟨x, -, rfl⟩) | rfl | ⟨x, -, -, rfl⟩ | ⟨x, -, -, -, rfl⟩)
      · exact .labelError _
      · exact .text _ (by decide)
      · exact .text _ (by decide)
      · exact .notIn _ _
      · exact .notIn _ _
      · exact .text _ (by decide)
      · exact .skipped _ _
      · exact .skipped _ _
  have hgo2 : ∀ a b, diff order lower index1 index2 dispo1 dispo2 rs a b quiet =
      (say pre).next ((Collisions.compare d1 d2 dic).next (if a then
        (diffCollisions lower b "LGR1" labels d1).next (diffCollisions lower b "LGR2" labels d2) else say [])) := by
    intro a b
    rw [hgo a b, hpre]
    simp only [say_next, List.append_assoc]
  have mf1 : ∀ l, MutualFor index1 dispo1 quiet (Input rs) l ↔ MutualFor index1 dispo1 quiet (Input rs) l := fun _ => Iff.rfl
  refine ⟨fun hm a b => ?_, fun hm => ?_⟩
  · rw [hgo2]
    have := c2 hm
    simp [say, Report.next, this]
  · obtain ⟨k1, k2⟩ := c1 hm
    have hcmp : Collisions.compare d1 d2 dic = say (Collisions.compare d1 d2 dic).1 := by
      unfold say; rw [← k1]
    generalize (Collisions.compare d1 d2 dic).1 = cmp at hcmp k2
    have hc : ∀ d, completeOutput labels [] d = say (completeOutput labels [] d).1 := fun _ => rfl
    have f1 := fullDump_spec lower hd1 hl (by simp) g1
    have f2 := fullDump_spec lower hd2 hl (by simp) g2
    rw [eL, eT] at f1 f2
    refine ⟨pre, cmp, hbef, k2, fun b => ?_, fun h1 h2 => ?_, fun hn => ?_⟩
    · rw [hgo2, hcmp]
      simp [say, Report.next]
    · have r1 := complete_reported (groups_of hl (by simp) g1) (fun k es hes => groups_cps hl (by simp) g1 hes)
        (fun k es hes e he hv => variants_apart (by
          intro q k hq hi v hv hvm
          simp only [ml, List.not_mem_nil, or_false] at hq hvm
          exact h1 q k hq hi v hv hvm) hl (by simp) g1 hes he hv)
      have r2 := complete_reported (groups_of hl (by simp) g2) (fun k es hes => groups_cps hl (by simp) g2 hes)
        (fun k es hes e he hv => variants_apart (by
          intro q k hq hi v hv hvm
          simp only [ml, List.not_mem_nil, or_false] at hq hvm
          exact h2 q k hq hi v hv hvm) hl (by simp) g2 hes he hv)
      rw [eL, eT] at r1 r2
      refine ⟨_, _, r1, r2, ?_, fun m1 m2 => ?_⟩
      · rw [hgo2, hcmp]
        unfold diffCollisions
        rw [hc d1, hc d2]
        simp [say, Report.next]
      · obtain ⟨p1, p2⟩ := f1.1 m1
        obtain ⟨q1, q2⟩ := f2.1 m2
        refine ⟨_, _, p2, q2, ?_⟩
        have e1 : fullDump lower d1 = say (fullDump lower d1).1 := by unfold say; rw [← p1]
        have e2 : fullDump lower d2 = say (fullDump lower d2).1 := by unfold say; rw [← q1]
        rw [hgo2, hcmp]
        unfold diffCollisions
        rw [hc d1, hc d2, e1, e2]
        simp [say, Report.next]
    · rw [hgo2, hcmp]
      unfold diffCollisions
      rw [hc d1, hc d2]
      have s1 : Sym (fullDump lower d1) := by
        by_cases h : Mutual index1 dispo1 quiet (Input rs) NoTld
        · exact .inl (f1.1 h).1
        · exact .inr (f1.2 h)
      have s2 : Sym (fullDump lower d2) := by
        by_cases h : Mutual index2 dispo2 quiet (Input rs) NoTld
        · exact .inl (f2.1 h).1
        · exact .inr (f2.2 h)
      have s : Sym ((say pre).next ((say cmp).next (if true = true then
          (((say [Line.text ("Collisions for " ++ "LGR1")]).next (say (completeOutput labels [] d1).1)).next
            (if true = true then (say [Line.text ("Summary for " ++ "LGR1")]).next (fullDump lower d1) else say [])).next
          (((say [Line.text ("Collisions for " ++ "LGR2")]).next (say (completeOutput labels [] d2).1)).next
            (if true = true then (say [Line.text ("Summary for " ++ "LGR2")]).next (fullDump lower d2) else say []))
          else say []))) := by
        simp only [if_true]
        exact (Sym.say _).next ((Sym.say _).next ((((Sym.say _).next (Sym.say _)).next ((Sym.say _).next s1)).next
          (((Sym.say _).next (Sym.say _)).next ((Sym.say _).next s2))))
      refine s.error (fun hok => ?_)
      simp only [if_true, next_ok_iff] at hok
      obtain ⟨-, -, ⟨-, -, w1⟩, -, -, w2⟩ := hok
      apply hn
      constructor
      · by_contra h
        rw [f1.2 h] at w1; cases w1
      · by_contra h
        rw [f2.2 h] at w2; cases w2

end Lgr.Props.C114

import Verif.Props.CollisionReports6

/-!
# C114: `diff` with LGRs
-/

namespace Lgr.Props.C114
open Lgr Collisions LabelInput C32 C112 C113 FullEnv Repertoire

/-! ## Labels without index are not looked at -/

/-- The labels read which have an index. -/
def Has (index : Seq → Except Err Seq) (rs : List Read) (l : Seq) : Prop := Input rs l ∧ ∃ k, index l = .ok k

/-- The same is computed for the labels which have an index. -/
def Agree (index : Seq → Except Err Seq) (rs : List Read) (quiet : Bool) (dispo dispo' : Dispo) : Prop :=
  ∀ l, Has index rs l → computed dispo quiet l = computed dispo' quiet l

theorem mutualFor_congr {index : Seq → Except Err Seq} {rs : List Read} {quiet : Bool} {dispo dispo' : Dispo}
    (h : Agree index rs quiet dispo dispo') {l : Seq} (hl : Input rs l) :
    MutualFor index dispo quiet (Input rs) l ↔ MutualFor index dispo' quiet (Input rs) l := by
  unfold MutualFor
  constructor
  · rintro hm q hq ⟨k, h1, h2⟩
    rw [← h l ⟨hl, k, h1⟩, ← h q ⟨hq, k, h2⟩]
    exact hm q hq ⟨k, h1, h2⟩
  · rintro hm q hq ⟨k, h1, h2⟩
    rw [h l ⟨hl, k, h1⟩, h q ⟨hq, k, h2⟩]
    exact hm q hq ⟨k, h1, h2⟩

theorem mutual_congr {index : Seq → Except Err Seq} {rs : List Read} {quiet : Bool} {dispo dispo' : Dispo}
    (h : Agree index rs quiet dispo dispo') :
    Mutual index dispo quiet (Input rs) NoTld ↔ Mutual index dispo' quiet (Input rs) NoTld := by
  unfold Mutual
  constructor
  · rintro hm p q hp hq ⟨k, h1, h2⟩
    rw [← h p ⟨hp, k, h1⟩, ← h q ⟨hq.resolve_right id, k, h2⟩]
    exact hm p q hp hq ⟨k, h1, h2⟩
  · rintro hm p q hp hq ⟨k, h1, h2⟩
    rw [h p ⟨hp, k, h1⟩, h q ⟨hq.resolve_right id, k, h2⟩]
    exact hm p q hp hq ⟨k, h1, h2⟩

theorem coherent_congr {index : Seq → Except Err Seq} {rs : List Read} {quiet : Bool} {dispo dispo' : Dispo}
    (h : Agree index rs quiet dispo dispo') (hc : Coherent index dispo quiet rs) : Coherent index dispo' quiet rs := by
  intro q k hq hk v hv
  rw [← h q ⟨hq, k, hk⟩] at hv
  exact hc q k hq hk v hv

theorem dumped_congr {index : Seq → Except Err Seq} {rs : List Read} {quiet : Bool} {dispo dispo' : Dispo}
    {lower : String → String} {out : List Line} (h : Agree index rs quiet dispo dispo')
    (hd : Dumped index dispo lower quiet (Input rs) NoTld out) :
    Dumped index dispo' lower quiet (Input rs) NoTld out := by
  refine ⟨hd.dump, fun p c x => ?_, fun p x s => ?_, fun p s n => ?_⟩
  · rw [hd.dumped]
    refine and_congr_right (fun hp => ?_)
    rw [h p hp]
  · rw [hd.disps]
    refine and_congr_right (fun hp => ?_)
    rw [h p hp]
  · rw [hd.counts]
    refine and_congr_right (fun hp => ?_)
    rw [h p hp]

theorem compared_congr {index1 index2 : Seq → Except Err Seq} {rs : List Read} {quiet : Bool}
    {dispo1 dispo1' dispo2 dispo2' : Dispo} {out : List Line} (h1 : Agree index1 rs quiet dispo1 dispo1')
    (h2 : Agree index2 rs quiet dispo2 dispo2')
    (hc : Compared index1 index2 dispo1 dispo2 quiet (Input rs) (InBoth index1 index2 rs) out) :
    Compared index1 index2 dispo1' dispo2' quiet (Input rs) (InBoth index1 index2 rs) out := by
  refine ⟨hc.comparison, fun l c x s2 s1 rules => ?_, fun l => ?_, fun l c x => ?_, fun l s => ?_, fun l c x => ?_,
    fun l s => ?_, fun l => ?_⟩
  · rw [hc.change]
    refine and_congr_right (fun hl => ?_)
    unfold Changed
    rw [h1 l ⟨hl.1, hl.2.1⟩, h2 l ⟨hl.1, hl.2.2⟩]
  · rw [hc.noChange]
    refine and_congr_right (fun hl => ?_)
    unfold Changed
    rw [h1 l ⟨hl.1, hl.2.1⟩, h2 l ⟨hl.1, hl.2.2⟩]
  · rw [hc.added]
    refine and_congr_right (fun hl => ?_)
    unfold New
    rw [h1 l ⟨hl.1, hl.2.1⟩, h2 l ⟨hl.1, hl.2.2⟩]
  · rw [hc.addedRules]
    refine and_congr_right (fun hl => ?_)
    unfold New
    rw [h1 l ⟨hl.1, hl.2.1⟩, h2 l ⟨hl.1, hl.2.2⟩]
  · rw [hc.removed]
    refine and_congr_right (fun hl => ?_)
    unfold New
    rw [h1 l ⟨hl.1, hl.2.1⟩, h2 l ⟨hl.1, hl.2.2⟩]
  · rw [hc.removedRules]
    refine and_congr_right (fun hl => ?_)
    unfold New
    rw [h1 l ⟨hl.1, hl.2.1⟩, h2 l ⟨hl.1, hl.2.2⟩]
  · rw [hc.sameVariants]
    refine and_congr_right (fun hl => ?_)
    rw [h1 l ⟨hl.1, hl.2.1⟩, h2 l ⟨hl.1, hl.2.2⟩]

theorem tame_agree (index : Seq → Except Err Seq) (rs : List Read) (quiet : Bool) (dispo : Dispo) :
    Agree index rs quiet (tame (Has index rs) dispo) dispo := by
  intro l hl
  unfold computed
  rw [tame_pos hl]

theorem tame_returns {P : Seq → Prop} {dispo : Dispo} (h : ∀ b l w, P l → (dispo b l w).2 = .ok ()) (b : Bool) (l : Seq)
    (w : Option (List Seq)) : (tame P dispo b l w).2 = .ok () := by
  by_cases hl : P l
  · rw [tame_pos hl]; exact h b l w hl
  · rw [tame_neg hl]

theorem tame_lists {P : Seq → Prop} {dispo : Dispo} {quiet : Bool} (h : Lists dispo quiet P) :
    Lists (tame P dispo) quiet (fun _ => True) :=
  ⟨fun l _ => by
      by_cases hl : P l
      · have := h.once l hl
        unfold computed at this ⊢
        rw [tame_pos hl]; exact this
      · unfold computed; rw [tame_neg hl]; simp, fun l _ => by
      by_cases hl : P l
      · have := h.own l hl
        unfold computed at this ⊢
        rw [tame_pos hl]; exact this
      · unfold computed; rw [tame_neg hl]; simp⟩

/-- **C114**, partial. `diff`: the labels which cannot be read and those not in an LGR are reported; for each label in
both LGRs, exactly the variants with different dispositions, those in the second LGR only and those in the first LGR
only are listed. This is done when the labels of the same index have the same variants, otherwise `InvalidSymmetry` is
raised. The collisions and dumps of the two LGRs are those of `collision` (C113). Missing: labels of the same index have
the same variants whenever the LGRs are symmetric and transitive (`self_wrong`). -/
theorem diff_partial (order : List Seq → List Seq) (ho : Order order) (lower : String → String)
    (index1 index2 : Seq → Except Err Seq) (dispo1 dispo2 : Dispo) (rs : List Read) (quiet : Bool)
    (hidx1 : Indexes index1 (Input rs)) (hidx2 : Indexes index2 (Input rs))
    (hok1 : ∀ b l w, Has index1 rs l → (dispo1 b l w).2 = .ok ())
    (hok2 : ∀ b l w, Has index2 rs l → (dispo2 b l w).2 = .ok ())
    (hd1 : Lists dispo1 quiet (Has index1 rs)) (hd2 : Lists dispo2 quiet (Has index2 rs)) :
    DiffOk order lower index1 index2 dispo1 dispo2 rs quiet := by
  have a1 := tame_agree index1 rs quiet dispo1
  have a2 := tame_agree index2 rs quiet dispo2
  have a1' : Agree index1 rs quiet dispo1 (tame (Has index1 rs) dispo1) := fun l hl => (a1 l hl).symm
  have a2' : Agree index2 rs quiet dispo2 (tame (Has index2 rs) dispo2) := fun l hl => (a2 l hl).symm
  have hdiff : ∀ a b, diff order lower index1 index2 (tame (Has index1 rs) dispo1) (tame (Has index2 rs) dispo2) rs a b
      quiet = diff order lower index1 index2 dispo1 dispo2 rs a b quiet := by
    intro a b
    unfold diff
    dsimp only
    rw [generate_congr (index := index1) (dispo := tame (Has index1 rs) dispo1) (dispo' := dispo1) true quiet (by
      intro c l w k hl hk
      simp only [ho.mem, mem_validLabels, List.not_mem_nil, or_false] at hl
      exact tame_pos ⟨hl, k, hk⟩ c w),
      generate_congr (index := index2) (dispo := tame (Has index2 rs) dispo2) (dispo' := dispo2) true quiet (by
      intro c l w k hl hk
      simp only [ho.mem, mem_validLabels, List.not_mem_nil, or_false] at hl
      exact tame_pos ⟨hl, k, hk⟩ c w)]
  obtain ⟨g1, g2⟩ := diff_global order ho lower index1 index2 _ _ (tame_returns hok1) (tame_returns hok2) rs quiet
    (tame_lists hd1) (tame_lists hd2) hidx1 hidx2
  simp only [hdiff] at g1 g2
  have hm : (∀ l, InBoth index1 index2 rs l → MutualFor index1 (tame (Has index1 rs) dispo1) quiet (Input rs) l ∧
      MutualFor index2 (tame (Has index2 rs) dispo2) quiet (Input rs) l) ↔ ∀ l, InBoth index1 index2 rs l →
      MutualFor index1 dispo1 quiet (Input rs) l ∧ MutualFor index2 dispo2 quiet (Input rs) l :=
    forall_congr' fun l => imp_congr_right fun hl =>
      and_congr (mutualFor_congr a1 hl.1) (mutualFor_congr a2 hl.1)
  rw [hm] at g1 g2
  rw [mutual_congr a1, mutual_congr a2] at g2
  refine ⟨g1, fun h => ?_⟩
  obtain ⟨pre, cmp, e1, e2, e3, e4, e5⟩ := g2 h
  refine ⟨pre, cmp, e1, compared_congr a1 a2 e2, e3, fun h1 h2 => ?_, e5⟩
  obtain ⟨c1, c2, f1, f2, f3, f4⟩ := e4 (coherent_congr a1' h1) (coherent_congr a2' h2)
  refine ⟨c1, c2, f1, f2, f3, fun m1 m2 => ?_⟩
  obtain ⟨s1, s2, k1, k2, k3⟩ := f4 m1 m2
  exact ⟨s1, s2, dumped_congr a1 k1, dumped_congr a2 k2, k3⟩

/-! ## LGRs -/

/-- **C114**, partial: `diff` of two LGRs whose rules are defined, symmetric and transitive, without conditional
variants and where no entry is a prefix of another one, for labels of at most 63 code points. The labels in both LGRs are
compared: exactly the changes, additions and removals of variants are listed. -/
theorem diff_lgr_partial (order : List Seq → List Seq) (ho : Order order) (lower : String → String)
    {env1 env2 : FullEnv} {r1 r2 : Repertoire} {actions1 actions2 : List Action} (h1 : Defined env1 r1 actions1)
    (h2 : Defined env2 r2 actions2) (hg1 : Regular r1) (hg2 : Regular r2) (log1 log2 : Seq → Seq → String)
    (rs : List Read) (hfit : ∀ l, Input rs l → Fits l) (quiet : Bool) :
    ∃ pre cmp, Before (indexOf env1 r1) (indexOf env2 r2) rs pre ∧
      Compared (indexOf env1 r1) (indexOf env2 r2) (dispoOf env1 r1 actions1 log1) (dispoOf env2 r2 actions2 log2) quiet
        (Input rs) (fun l => Input rs l ∧ Accepted env1 r1 l ∧ Accepted env2 r2 l) cmp ∧
      ∀ showDump, diff order lower (indexOf env1 r1) (indexOf env2 r2) (dispoOf env1 r1 actions1 log1)
        (dispoOf env2 r2 actions2 log2) rs false showDump quiet = (pre ++ cmp, .ok ()) := by
  have key : ∀ {env : FullEnv} {r : Repertoire} {actions : List Action} (log : Seq → Seq → String),
      Defined env r actions → Regular r → ∀ l, Input rs l →
      MutualFor (indexOf env r) (dispoOf env r actions log) quiet (Input rs) l := by
    rintro env r actions log h hg l hl q hq ⟨k, e1, e2⟩ x hx
    rw [(computed_iff h log quiet (hfit q hq)).2] at hx
    rw [(computed_iff h log quiet (hfit l hl)).2]
    exact same_variants h.wf hg h.rules (hfit l hl).1 (hfit q hq).1 e1 e2 hx
  have hP1 : ∀ l, Has (indexOf env1 r1) rs l → Fits l := fun l hl => hfit l hl.1
  have hP2 : ∀ l, Has (indexOf env2 r2) rs l → Fits l := fun l hl => hfit l hl.1
  obtain ⟨pre, cmp, e1, e2, e3, -⟩ := (diff_partial order ho lower (indexOf env1 r1) (indexOf env2 r2)
    (dispoOf env1 r1 actions1 log1) (dispoOf env2 r2 actions2 log2) rs quiet (index_indexes h1 hfit)
    (index_indexes h2 hfit) (fun b l w hl => dispoOf_ok h1 log1 b (hP1 l hl) w)
    (fun b l w hl => dispoOf_ok h2 log2 b (hP2 l hl) w) (dispoOf_lists h1 log1 quiet hP1)
    (dispoOf_lists h2 log2 quiet hP2)).compared
    (fun l hl => ⟨key log1 h1 hg1 l hl.1, key log2 h2 hg2 l hl.1⟩)
  refine ⟨pre, cmp, e1, ?_, e3⟩
  have : InBoth (indexOf env1 r1) (indexOf env2 r2) rs = fun l => Input rs l ∧ Accepted env1 r1 l ∧ Accepted env2 r2 l := by
    funext l
    refine propext (and_congr_right fun hl => ?_)
    rw [accepted_iff h1 (hfit l hl).1, accepted_iff h2 (hfit l hl).1]
  rw [← this]; exact e2

/-- Compared with itself, an LGR has no change. -/
theorem self_partial (order : List Seq → List Seq) (ho : Order order) (lower : String → String)
    {env : FullEnv} {r : Repertoire} {actions : List Action} (h : Defined env r actions) (hg : Regular r)
    (log : Seq → Seq → String) (rs : List Read) (hfit : ∀ l, Input rs l → Fits l) (quiet showDump : Bool) :
    ∃ out, diff order lower (indexOf env r) (indexOf env r) (dispoOf env r actions log) (dispoOf env r actions log) rs
        false showDump quiet = (out, .ok ()) ∧
      (∀ l, .comparison l ∈ out → .noChange l ∈ out ∧ .sameVariants l ∈ out) ∧
      (∀ l c x s2 s1 rules, .change l c x s2 s1 rules ∉ out) ∧ (∀ l c x, .added l c x ∉ out) ∧
      (∀ l c x, .removed l c x ∉ out) := by
  have hP : ∀ l, Has (indexOf env r) rs l → Fits l := fun l hl => hfit l hl.1
  obtain ⟨pre, cmp, e1, e2, e3⟩ := diff_lgr_partial order ho lower h h hg hg log log rs hfit quiet
  have hch : ∀ l x i1 i2, Input rs l →
      ¬ Changed (dispoOf env r actions log) (dispoOf env r actions log) quiet l x i1 i2 := by
    rintro l x i1 i2 hl ⟨c1, c2, c3⟩
    have := (computed_iff h log quiet (hfit l hl)).1
    have e : i1 = i2 := by
      have a := dget_of_mem this c1
      rw [dget_of_mem this c2] at a
      cases a; rfl
    exact c3 (by rw [e])
  have hnew : ∀ l x, ¬ New (dispoOf env r actions log) (dispoOf env r actions log) quiet l x := fun l x hn => hn.2 hn.1
  refine ⟨_, e3 showDump, fun l hl => ?_, fun l c x s2 s1 rules hm => ?_, fun l c x hm => ?_, fun l c x hm => ?_⟩
  · rcases List.mem_append.1 hl with hl | hl
    · cases e1.early _ hl
    rw [e2.comparison] at hl
    exact ⟨List.mem_append_right _ ((e2.noChange l).2 ⟨hl, fun x i1 i2 => hch l x i1 i2 hl.1⟩),
      List.mem_append_right _ ((e2.sameVariants l).2 ⟨hl, fun x => Iff.rfl⟩)⟩
  · rcases List.mem_append.1 hm with hm | hm
    · cases e1.early _ hm
    obtain ⟨h1, -, i1, i2, h2, -⟩ := (e2.change l c x s2 s1 rules).1 hm
    exact hch l x i1 i2 h1.1 h2
  · rcases List.mem_append.1 hm with hm | hm
    · cases e1.early _ hm
    exact hnew l x ((e2.added l c x).1 hm).2.2
  · rcases List.mem_append.1 hm with hm | hm
    · cases e1.early _ hm
    exact hnew l x ((e2.removed l c x).1 hm).2.2

/-- An LGR can be compared with itself. -/
def SelfCompares : Prop :=
  ∀ (order : List Seq → List Seq), Order order → ∀ (lower : String → String) (env : FullEnv) (r : Repertoire)
    (actions : List Action), Defined env r actions → C14.PrefixFree r → SymmetricR r → TransitiveR r →
    ∀ (log : Seq → Seq → String) (rs : List Read), (∀ l, Input rs l → Fits l) → ∀ (quiet : Bool),
    ∃ out, diff order lower (indexOf env r) (indexOf env r) (dispoOf env r actions log) (dispoOf env r actions log) rs
      false false quiet = (out, .ok ())

/-- Rules are met after an `a`. -/
def afterA : FullEnv :=
  ⟨⟨fun _ l _ i => .ok (decide (0 < i ∧ l[i - 1]? = some 97))⟩, fun _ _ => .ok false, fun _ => "Latin"⟩

/-- **C114** is violated: `a` and `b` are variants, `x` and `y` are variants after an `a`. The labels `ax` and `ay` have
the same index; `by` is a variant of `ay` only, so the LGR cannot be compared with itself. -/
theorem self_wrong : ¬ SelfCompares := by
  intro h
  obtain ⟨out, ho⟩ := h List.dedup ⟨List.nodup_dedup, fun _ _ => List.mem_dedup⟩ id afterA
    (Repertoire.run {} [.addChar [97] {}, .addChar [98] {}, .addChar [120] {}, .addChar [121] {},
      .addVariant [97] { cp := [98] }, .addVariant [98] { cp := [97] },
      .addVariant [120] { cp := [121], whenR := some "R" }, .addVariant [121] { cp := [120], whenR := some "R" }]) []
    ⟨C01.wf_run _, ⟨fun _ _ _ _ _ _ _ => ⟨_, rfl⟩, fun _ _ _ _ _ _ _ _ _ => ⟨_, rfl⟩⟩, by intro l a ha; simp at ha⟩
    (prefixFree_of (C01.wf_run _) (by decide +kernel))
    (symmetric_of (C01.wf_run _) (by decide +kernel)) (transitive_of (C01.wf_run _) (by decide +kernel))
    (fun _ _ => "") (reads [[97, 120], [97, 121]]) (by
      intro l hl
      rw [input_reads] at hl
      simp only [List.mem_cons, List.not_mem_nil, or_false] at hl
      rcases hl with rfl | rfl <;> exact ⟨by simp, by simp⟩) true
  have := congrArg Prod.snd ho
  dsimp only at this
  clear ho
  revert this
  decide +kernel

/-- The LGR of the example below, with a variant `c` more or less. -/
def abc (withC : Bool) (ty : String) : Repertoire :=
  Repertoire.run {} ([.addChar [97] {}, .addChar [98] {}, .addChar [99] {},
      .addVariant [97] { cp := [98], type := some ty }, .addVariant [98] { cp := [97] }] ++
    if withC then [.addVariant [97] { cp := [99] }, .addVariant [99] { cp := [97] },
      .addVariant [98] { cp := [99] }, .addVariant [99] { cp := [98] }] else [])

/-- Non-vacuity of `diff_lgr_partial`: in the second LGR `c` is a variant of `a` too and `b` is blocked. -/
example : diff List.dedup id (indexOf noContext (abc false "allocatable")) (indexOf noContext (abc true "blocked"))
    (dispoOf noContext (abc false "allocatable") [] (fun _ _ => "log"))
    (dispoOf noContext (abc true "blocked") [{ disp := "blocked", anyVariant := ["blocked"] }] (fun _ _ => "log"))
    (reads [[97], [100]]) false false false =
    ([.text "Labels not in LGR 1", .notIn 1 [100], .text "Labels not in LGR 2", .notIn 2 [100], .text "LGR comparison",
      .skipped 1 [100], .comparison [97], .change [97] .variant [98] "blocked" "allocatable" (some ("log", "log")),
      .added [97] .variant [99], .addedRules [97] "log"], .ok ()) := by
  decide +kernel

example : Regular (abc true "blocked") ∧ Defined noContext (abc true "blocked") [] :=
  ⟨⟨prefixFree_of (C01.wf_run _) (by decide +kernel), unconditional_of (C01.wf_run _) (by decide +kernel),
      symmetric_of (C01.wf_run _) (by decide +kernel), transitive_of (C01.wf_run _) (by decide +kernel)⟩,
    C01.wf_run _, ⟨fun _ _ _ _ _ _ _ => ⟨_, rfl⟩, fun _ _ _ _ _ _ _ _ _ => ⟨_, rfl⟩⟩, by intro l a ha; simp at ha⟩

end Lgr.Props.C114

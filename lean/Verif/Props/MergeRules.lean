import Verif.Props.MergeSet

/-!
# C96: the context rules of the merge of a set of LGRs are defined
-/

namespace Lgr.Props.C96
open Lgr LGR Repertoire C50 C26 C28 Compare MergeSet C94 C45

/-- A context that is one of `rules`, if any. -/
def Named (rules : List String) (o : Option String) : Prop := ∀ w, o = some w → w ∈ rules

/-- Every context of `g` is one of `rules`. -/
def CtxIn (g : LGR) (rules : List String) : Prop :=
  (∀ k e, g.rep.lookup k = some e → Named rules e.attrs.whenR ∧ Named rules e.attrs.notWhenR) ∧
    ∀ k v, Maps g k v → Named rules v.whenR ∧ Named rules v.notWhenR

/-- A context which is a rule of the LGR other than those of the MSR. -/
def Own (i : Input) (o : Option String) : Prop :=
  ∀ w, o = some w → w ≠ "" → w ∈ i.rules ∧ w ≠ "leading-combining-mark"

/-- Every context of the LGR is a rule of it, other than those of the MSR. -/
structure Defined (i : Input) : Prop where
  chars : ∀ k e, i.lgr.rep.lookup k = some e → Own i e.attrs.whenR ∧ Own i e.attrs.notWhenR
  vars : ∀ k v, Maps i.lgr k v → Own i v.whenR ∧ Own i v.notWhenR

/-! ### Names -/

/-- `r` is `o` or ends it, after a hyphen. -/
def Ends (o r : String) : Prop := o = r ∨ ∃ q, o = q ++ "-" ++ r

theorem Ends.trans {a b c : String} (h1 : Ends a b) (h2 : Ends b c) : Ends a c := by
  rcases h1 with rfl | ⟨q, rfl⟩
  · exact h2
  · rcases h2 with rfl | ⟨q', rfl⟩
    · exact .inr ⟨q, rfl⟩
    · exact .inr ⟨q ++ "-" ++ q', by simp [String.append_assoc]⟩

theorem dropPrefix_ends (p s : String) : Ends s (dropPrefix p s) := by
  unfold dropPrefix
  simp only
  split
  · rename_i h
    obtain ⟨t, ht⟩ := h
    refine .inr ⟨p, ?_⟩
    rw [← ht, List.drop_left]
    apply String.toList_injective
    rw [← ht]
    simp [pre]
  · exact .inl rfl

theorem bareRule_ends (prev : List String) (old : Option String) (r : String)
    (h : bareRule prev old = some r) (hr : r ≠ "") : ∃ o, old = some o ∧ Ends o r := by
  cases old with
  | none => simp [bareRule] at h
  | some o =>
    refine ⟨o, rfl, ?_⟩
    unfold bareRule at h
    simp only at h
    split at h
    · cases h
      generalize prev.reverse = l
      have : ∀ s, Ends s (l.foldl (fun r p => dropPrefix p r) s) := by
        induction l with
        | nil => intro s; exact .inl rfl
        | cons p l ih => intro s; exact (dropPrefix_ends p s).trans (ih _)
      exact this o
    · cases h; exact .inl rfl

theorem dropSuffix_pre (q r : String) : dropSuffix r (pre q r) = q := by
  unfold dropSuffix
  have h1 : (pre q r).toList = q.toList ++ (pre "" r).toList := by simp [pre]
  simp only
  rw [h1, if_pos (List.suffix_append _ _)]
  have : (q.toList ++ (pre "" r).toList).length - (pre "" r).toList.length = q.toList.length := by
    rw [List.length_append]; omega
  rw [this, List.take_left]
  simp

theorem ruleName_of {script r : String} (h : r ≠ "leading-combining-mark") : ruleName script r = pre script r := by
  unfold ruleName msrRules
  simp [h]

/-- The name chosen for a context of a code point of two LGRs. -/
theorem mergeRule_named {i : Input} {prev : List String} {old new w : Option String} {rules : List String}
    (ho : Named rules old) (hn : Own i new)
    (hr : ∀ w p, mergeRule i.script prev old new = some (w, some p) → p.2 ∈ i.rules → p.2 ≠ "" →
      ruleName p.1 p.2 ∈ rules)
    (hi : ∀ n ∈ i.rules, n ≠ "leading-combining-mark" → pre i.script n ∈ rules)
    (h : (mergeRule i.script prev old new).map Prod.fst = some w) : Named rules w := by
  cases new with
  | none =>
    simp only [mergeRule, Option.map_some, Option.some.injEq] at h
    rw [← h]; exact ho
  | some r =>
    by_cases hre : r = ""
    · simp only [mergeRule, hre, if_true, Option.map_some, Option.some.injEq] at h
      rw [← h]; exact ho
    · obtain ⟨n1, n2⟩ := hn r rfl hre
      cases hm : mergeRule i.script prev old (some r) with
      | none => rw [hm] at h; simp at h
      | some p =>
        rw [hm] at h
        simp only [Option.map_some, Option.some.injEq] at h
        subst h
        have hm' := hm
        unfold mergeRule at hm'
        simp only [hre, if_false] at hm'
        split at hm'
        · cases hm'
          rintro x ⟨⟩
          exact hi r n1 n2
        · split at hm'
          · rename_i hb
            cases hm'
            have h1 := hr _ _ hm n1 hre
            rintro x ⟨⟩
            simp only at h1
            rw [ruleName_of n2] at h1
            obtain ⟨o, rfl, he⟩ := bareRule_ends prev old r hb hre
            simp only [Option.getD_some] at h1 ⊢
            rcases he with rfl | ⟨q, rfl⟩
            · rwa [dropSuffix_pre] at h1
            · have : pre i.script (q ++ "-" ++ r) = pre (i.script ++ "-" ++ q) r := by
                simp [pre, String.append_assoc]
              rw [this, dropSuffix_pre] at h1
              rw [this]; exact h1
          · simp at hm'

theorem preRule_named {i : Input} {rules : List String} {o : Option String} (h : Own i o)
    (hi : ∀ n ∈ i.rules, n ≠ "leading-combining-mark" → pre i.script n ∈ rules) :
    Named rules (preRule i.script o) := by
  intro w hw
  cases o with
  | none => simp [preRule] at hw
  | some r =>
    by_cases hr : r = ""
    · simp [preRule, hr] at hw
    · simp only [preRule, ne_eq, hr, not_false_eq_true, if_true, Option.some.injEq] at hw
      rw [← hw]
      obtain ⟨h1, h2⟩ := h r rfl hr
      exact hi r h1 h2

/-! ### The set -/

theorem ctx_step {ord : SetOrder} {valid : String → Bool} {D W : Prop} {done : List Input}
    {s s' : SState} {i : Input} (h0 : SInv D W done s) (hc : CtxIn s.m.lgr s.m.rules) (hi : Good i)
    (hdf : Defined i) (h : mergeOne ord valid s i = (s', .ok ())) : CtxIn s'.m.lgr s'.m.rules := by
  unfold mergeOne at h
  generalize he : i.lgr.expandRanges i.db = r at h
  obtain ⟨g, o⟩ := r
  cases o with
  | error e => simp at h
  | ok u =>
    obtain ⟨e1, e2, -, e4⟩ := C30.expanded hi.wf hi.intact he
    dsimp only at h
    generalize hm : mergeReferences valid g.refs s.m.lgr.refs ((dget s.maps i.script).getD []) = r at h
    obtain ⟨⟨rm, map⟩, o⟩ := r
    cases o with
    | error e => simp at h
    | ok u =>
      dsimp only at h
      generalize hcm : mergeChars ord i g map s.prev { s.m with lgr := { s.m.lgr with refs := rm } } = r at h
      obtain ⟨m, o⟩ := r
      cases o with
      | error e => simp at h
      | ok u =>
        simp only [Prod.mk.injEq, and_true] at h
        have hsrc' : ∀ {k c}, g.rep.lookup k = some c → ∃ d, i.lgr.rep.lookup k = some d ∧ c = C06.noRange d := by
          intro k c hc
          rw [e4] at hc
          cases hd : i.lgr.rep.lookup k with
          | none => rw [hd] at hc; simp at hc
          | some d => rw [hd] at hc; simp at hc; exact ⟨d, rfl, hc.symm⟩
        have hps : Plain g := by
          intro k c hc
          obtain ⟨d, -, rfl⟩ := hsrc' hc
          rfl
        have hr := mergeChars_spec (m := { s.m with lgr := { s.m.lgr with refs := rm } }) e1 hps h0.inv.wf
          h0.inv.plain hcm
        obtain ⟨r1, r2⟩ := mergeChars_rules (m := { s.m with lgr := { s.m.lgr with refs := rm } }) e1 hps
          h0.inv.wf h0.inv.plain hcm
        obtain ⟨m1, m2, -⟩ := mergeRules_spec i.rules i.script none m.rules
        rw [← h]
        simp only
        generalize hR : mergeRules i.rules i.script none m.rules = R at m1 m2
        have hin : ∀ n ∈ i.rules, n ≠ "leading-combining-mark" → pre i.script n ∈ R := by
          intro n hn hne
          have := m2 n hn (.inl rfl)
          rwa [ruleName_of hne] at this
        have hup : ∀ {o}, Named s.m.rules o → Named R o := fun h w hw => m1 w (r1 w (h w hw))
        have hnone : Named R none := by rintro w ⟨⟩
        have hvars : ∀ {k d v}, i.lgr.rep.lookup k = some d → v ∈ d.getVariants →
            Named R (preRule i.script v.whenR) ∧ Named R (preRule i.script v.notWhenR) := by
          intro k d v hd hv
          obtain ⟨v1, v2⟩ := hdf.vars k v ⟨d, hd, hv⟩
          exact ⟨preRule_named v1 hin, preRule_named v2 hin⟩
        constructor
        · intro k e he
          cases hs : g.rep.lookup k with
          | none =>
            obtain ⟨o, ho, ha, -, -⟩ := hr.rest k e hs he
            obtain ⟨c1, c2⟩ := hc.1 k o ho
            rw [ha]; exact ⟨hup c1, hup c2⟩
          | some c =>
            obtain ⟨e0, hj, ha, -, -⟩ := hr.done k c e hs he
            obtain ⟨d, hd, rfl⟩ := hsrc' hs
            obtain ⟨d1, d2⟩ := hdf.chars k d hd
            rw [ha]
            cases ho : ({ s.m.lgr with refs := rm } : LGR).rep.lookup k with
            | none =>
              obtain ⟨-, -, n3, n4⟩ := hj.new ho
              rw [n3, n4]
              exact ⟨preRule_named d1 hin, preRule_named d2 hin⟩
            | some o =>
              obtain ⟨-, -, n3, n4⟩ := hj.both o ho
              obtain ⟨c1, c2⟩ := hc.1 k o ho
              have hru := r2 k _ hs o ho
              exact ⟨mergeRule_named (hup c1) d1 (fun w p h1 h2 h3 => m1 _ (hru w p (.inl h1) h2 h3)) hin n3,
                mergeRule_named (hup c2) d2 (fun w p h1 h2 h3 => m1 _ (hru w p (.inr h1) h2 h3)) hin n4⟩
        · rintro k v ⟨e, he, hv⟩
          cases hs : g.rep.lookup k with
          | none =>
            obtain ⟨o, ho, -, -, h2⟩ := hr.rest k e hs he
            rcases h2 v hv with h2 | ⟨y, rfl⟩
            · obtain ⟨c1, c2⟩ := hc.2 k v ⟨o, ho, h2⟩
              exact ⟨hup c1, hup c2⟩
            · exact ⟨hnone, hnone⟩
          | some c =>
            obtain ⟨e0, hj, -, -, h2⟩ := hr.done k c e hs he
            obtain ⟨d, hd, rfl⟩ := hsrc' hs
            rcases h2 v hv with h2 | ⟨y, rfl⟩
            · rcases (hj.vars v).1 h2 with ⟨o, ho, h3⟩ | ⟨w, hw, rfl, -⟩
              · obtain ⟨c1, c2⟩ := hc.2 k v ⟨o, ho, h3⟩
                exact ⟨hup c1, hup c2⟩
              · exact hvars hd hw
            · exact ⟨hnone, hnone⟩

theorem ctx_loop {ord : SetOrder} {valid : String → Bool} (l : List Input) :
    ∀ (done : List Input) (s s' : SState), SInv False False done s → CtxIn s.m.lgr s.m.rules →
      (∀ i ∈ l, Good i) → (∀ i ∈ l, Defined i) →
      forEach (mergeOne ord valid) s l = (s', .ok ()) → CtxIn s'.m.lgr s'.m.rules := by
  induction l with
  | nil =>
    intro done s s' _ hc _ _ h
    simp only [forEach, Prod.mk.injEq, and_true] at h
    rw [← h]; exact hc
  | cons i l ih =>
    intro done s s' h0 hc hg hd h
    obtain ⟨s1, h1, h2⟩ := forEach_cons_ok h
    exact ih (done ++ [i]) s1 s' (mergeOne_spec h0 (hg i (by simp)) False.elim False.elim h1)
      (ctx_step h0 hc (hg i (by simp)) (hd i (by simp)) h1) (fun j hj => hg j (by simp [hj]))
      (fun j hj => hd j (by simp [hj])) h2

/-- **C96, partial** If the contexts of the LGRs are rules of theirs, none being the rule of the MSR, every
context of the merge is a rule of the merge. Missing: that rule. -/
theorem merge_contexts_defined_partial (ord : SetOrder) (valid : String → Bool) (l : List Input)
    (hg : ∀ i ∈ l, Good i) (hd : ∀ i ∈ l, Defined i) (s : SState) (m : LGR)
    (h : mergeAll ord valid l = (s, .ok ())) (hm : mergeSet ord valid l = .ok m) :
    (∀ k e, m.rep.lookup k = some e →
      (∀ w, e.attrs.whenR = some w → w ∈ s.m.rules) ∧ ∀ w, e.attrs.notWhenR = some w → w ∈ s.m.rules) ∧
    ∀ k v, Maps m k v → (∀ w, v.whenR = some w → w ∈ s.m.rules) ∧ ∀ w, v.notWhenR = some w → w ∈ s.m.rules := by
  have hp : (ordered l).Perm l := sortAsc_perm _ _
  have hc : CtxIn s.m.lgr s.m.rules := by
    refine ctx_loop (ordered l) [] {} s ⟨minv_nil _, by simp, False.elim⟩ ⟨?_, ?_⟩
      (fun i hi => hg i (hp.mem_iff.1 hi)) (fun i hi => hd i (hp.mem_iff.1 hi)) h
    · intro k e he
      rw [show ({} : SState).m.lgr.rep.lookup k = none from empty_lookup k] at he
      simp at he
    · rintro k v ⟨e, he, -⟩
      rw [show ({} : SState).m.lgr.rep.lookup k = none from empty_lookup k] at he
      simp at he
  have h1 := (mergeAll_spec hg h).1
  unfold mergeSet at hm
  rw [h] at hm
  have hr := reread_spec h1.wf h1.plain hm
  constructor
  · intro k e he
    obtain ⟨c, hcl, ha⟩ := hr.entry k e he
    rw [ha.attrs]
    exact hc.1 k c hcl
  · rintro k v ⟨e, he, hv⟩
    obtain ⟨c, hcl, ha⟩ := hr.entry k e he
    obtain ⟨w, hw, rfl⟩ := (ha.vars v).1 hv
    exact hc.2 k w ⟨c, hcl, hw⟩

end Lgr.Props.C96

import Verif.Props.MergeRules

/-!
# C98: the context of a code point in the merge of a set of LGRs
-/

namespace Lgr.Props.C98
open Lgr LGR Repertoire C50 C26 C28 Compare MergeSet C94 C45

/-- A context, if it is not empty. -/
def given : Option String → Option String
  | some "" => none
  | o => o

/-- The contexts that the LGRs give to a code point, with their scripts, in order; `sel` selects `when` or
`not-when`. -/
def contexts (sel : Attrs → Option String) (l : List Input) (k : Seq) : List (String × String) :=
  l.filterMap (fun i => (i.lgr.rep.lookup k).bind (fun c => (given (sel c.attrs)).map (fun r => (i.script, r))))

/-- The context of the merge: the name of the rule, after the scripts, the last one first. -/
def Combined (ps : List (String × String)) (w : Option String) : Prop :=
  (ps = [] → w = none) ∧
    (ps ≠ [] → ∃ r, (∀ p ∈ ps, p.2 = r) ∧ w = some (ps.foldl (fun w p => p.1 ++ "-" ++ w) r))

/-- No script followed by a hyphen begins another script or the name of a context. -/
structure Apart (l : List Input) : Prop where
  nodup : (l.map Input.script).Nodup
  scripts : ∀ i ∈ l, ∀ j ∈ l, ∀ x, j.script ≠ i.script ++ "-" ++ x
  names : ∀ i ∈ l, ∀ j ∈ l, ∀ k c, j.lgr.rep.lookup k = some c → ∀ x,
    c.attrs.whenR ≠ some (i.script ++ "-" ++ x) ∧ c.attrs.notWhenR ≠ some (i.script ++ "-" ++ x)

theorem given_eq (o : Option String) : given o = none ∧ (o = none ∨ o = some "") ∨
    ∃ r, r ≠ "" ∧ o = some r ∧ given o = some r := by
  cases o with
  | none => exact .inl ⟨rfl, .inl rfl⟩
  | some r =>
    by_cases h : r = ""
    · subst h; exact .inl ⟨rfl, .inr rfl⟩
    · refine .inr ⟨r, h, rfl, ?_⟩
      unfold given
      split
      · rename_i he; exact absurd (Option.some.inj he) h
      · rfl

theorem dropPrefix_self (s x : String) : dropPrefix s (s ++ "-" ++ x) = x := by
  unfold dropPrefix
  have h1 : (s ++ "-" ++ x).toList = (pre s "").toList ++ x.toList := by simp [pre]
  simp only
  rw [h1, if_pos (List.prefix_append _ _), List.drop_left]
  simp

theorem dropPrefix_none {p s : String} (h : ∀ x, s ≠ p ++ "-" ++ x) : dropPrefix p s = s := by
  unfold dropPrefix
  simp only
  rw [if_neg]
  rintro ⟨t, ht⟩
  refine h (String.ofList t) ?_
  apply String.toList_injective
  rw [← ht]
  simp [pre]

/-- What begins with one script does not begin with another. -/
theorem apart_prefix {p s x y : String} (hne : p ≠ s) (h1 : ∀ x, s ≠ p ++ "-" ++ x)
    (h2 : ∀ x, p ≠ s ++ "-" ++ x) : s ++ "-" ++ x ≠ p ++ "-" ++ y := by
  intro h
  have h3 := congrArg String.toList h
  simp only [String.toList_append, List.append_assoc] at h3
  rcases List.append_eq_append_iff.1 h3 with ⟨a, ha, hb⟩ | ⟨a, ha, hb⟩
  · cases a with
    | nil =>
      simp only [List.append_nil] at ha
      exact hne (String.toList_injective ha)
    | cons c a =>
      have hc : c = '-' := by
        have : ("-" : String).toList = ['-'] := rfl
        rw [this] at hb
        simp only [List.cons_append, List.nil_append, List.cons.injEq] at hb
        exact hb.1.symm
      subst hc
      refine h2 (String.ofList a) (String.toList_injective ?_)
      rw [ha]; simp
  · cases a with
    | nil =>
      simp only [List.append_nil] at ha
      exact hne (String.toList_injective ha).symm
    | cons c a =>
      have hc : c = '-' := by
        have : ("-" : String).toList = ['-'] := rfl
        rw [this] at hb
        simp only [List.cons_append, List.nil_append, List.cons.injEq] at hb
        exact hb.1.symm
      subst hc
      refine h1 (String.ofList a) (String.toList_injective ?_)
      rw [ha]; simp

/-- The scripts before the name of a rule are taken away. -/
theorem strip_scripts (prev : List String) (hn : prev.Nodup)
    (ha : ∀ p ∈ prev, ∀ q ∈ prev, ∀ x, p ≠ q ++ "-" ++ x) (r : String)
    (hr : ∀ p ∈ prev, ∀ x, r ≠ p ++ "-" ++ x) (sub : List String) (hs : sub.Sublist prev) :
    prev.reverse.foldl (fun r p => dropPrefix p r) (sub.foldl (fun w s => s ++ "-" ++ w) r) = r := by
  induction prev using List.reverseRecOn generalizing sub with
  | nil =>
    rw [List.sublist_nil] at hs
    subst hs; rfl
  | append_singleton prev p ih =>
    rw [List.reverse_append, List.reverse_singleton, List.singleton_append, List.foldl_cons]
    have hn' := (List.nodup_append.1 hn)
    have ih' := ih hn'.1 (fun a h1 b h2 => ha a (by simp [h1]) b (by simp [h2])) (fun a h1 => hr a (by simp [h1]))
    rcases List.eq_nil_or_concat sub with rfl | ⟨sub', s, rfl⟩
    · rw [List.foldl_nil, dropPrefix_none (hr p (by simp))]
      exact ih' [] (List.nil_sublist _)
    · rw [List.concat_eq_append] at hs ⊢
      rw [List.foldl_append, List.foldl_cons, List.foldl_nil]
      by_cases hp : p = s
      · subst hp
        rw [dropPrefix_self]
        exact ih' sub' ((List.append_sublist_append_right _).1 hs)
      · have hs' : (sub' ++ [s]).Sublist prev := by
          rcases List.sublist_append_iff.1 hs with ⟨a, b, hab, h1, h2⟩
          rcases List.sublist_singleton.1 h2 with rfl | rfl
          · rw [List.append_nil] at hab; rw [hab]; exact h1
          · have := List.append_inj_right' hab rfl
            simp at this
            exact absurd this.symm hp
        have hsm : s ∈ prev := hs'.subset (by simp)
        rw [dropPrefix_none]
        · have := ih' (sub' ++ [s]) hs'
          rwa [List.foldl_append, List.foldl_cons, List.foldl_nil] at this
        · intro x
          exact apart_prefix hp (ha s (by simp [hsm]) p (by simp))
            (ha p (by simp) s (by simp [hsm]))

theorem combined_step {script : String} {prev : List String} {ps : List (String × String)}
    {old new w : Option String} (hc : Combined ps old) (hne : ∀ p ∈ ps, p.2 ≠ "")
    (hs : (ps.map Prod.fst).Sublist prev) (hn : prev.Nodup)
    (ha : ∀ p ∈ prev, ∀ q ∈ prev, ∀ x, p ≠ q ++ "-" ++ x)
    (hr : ∀ r ∈ ps, ∀ p ∈ prev, ∀ x, r.2 ≠ p ++ "-" ++ x)
    (h : (mergeRule script prev old new).map Prod.fst = some w) :
    Combined (ps ++ ((given new).map (fun r => (script, r))).toList) w := by
  rcases given_eq new with ⟨hg, hnew⟩ | ⟨r, hre, rfl, hg⟩
  · rw [hg]
    have : w = old := by
      rcases hnew with rfl | rfl
      · simpa [mergeRule] using h.symm
      · simpa [mergeRule] using h.symm
    rw [this]
    simpa using hc
  · rw [hg]
    simp only [Option.map_some, Option.toList_some]
    refine ⟨by simp, fun _ => ?_⟩
    by_cases hps : ps = []
    · have ho := hc.1 hps
      subst hps ho
      simp only [mergeRule, hre, if_false, bareRule, truthy] at h
      simp only [if_true, Option.map_some, Option.some.injEq] at h
      exact ⟨r, by simp, by rw [← h]; rfl⟩
    · obtain ⟨r0, h1, h2⟩ := hc.2 hps
      obtain ⟨p0, hp0⟩ := List.exists_mem_of_ne_nil ps hps
      have hr0 : r0 ≠ "" := h1 p0 hp0 ▸ hne p0 hp0
      have hold : old = some ((ps.map Prod.fst).foldl (fun w s => s ++ "-" ++ w) r0) := by
        rw [h2, List.foldl_map]
      have hb : bareRule prev old = some r0 := by
        rw [hold]
        unfold bareRule
        simp only
        rw [if_pos, strip_scripts prev hn ha r0 (fun p hp x => h1 p0 hp0 ▸ hr p0 hp0 p hp x) _ hs]
        rcases List.eq_nil_or_concat (ps.map Prod.fst) with he | ⟨l, s, he⟩
        · simp at he; exact absurd he hps
        · rw [he, List.concat_eq_append, List.foldl_append, List.foldl_cons, List.foldl_nil]
          intro hh
          have := congrArg String.toList hh
          simp at this
      simp only [mergeRule, hre, if_false, hb] at h
      have ht : truthy (some r0) = true := by simp [truthy, hr0]
      rw [ht] at h
      simp only [Bool.true_eq_false, if_false] at h
      by_cases hrr : some r0 = some r
      · rw [if_pos hrr] at h
        cases hrr
        simp only [Option.map_some, Option.some.injEq] at h
        refine ⟨r, ?_, ?_⟩
        · intro p hp
          rcases List.mem_append.1 hp with hp | hp
          · exact h1 p hp
          · simp at hp; rw [hp]
        · rw [← h, h2]
          simp [pre, List.foldl_append]
      · rw [if_neg hrr] at h; simp at h

theorem contexts_mem {sel : Attrs → Option String} {l : List Input} {k : Seq} {p : String × String}
    (h : p ∈ contexts sel l k) : p.2 ≠ "" ∧ ∃ i ∈ l, ∃ c, i.lgr.rep.lookup k = some c ∧ sel c.attrs = some p.2 := by
  unfold contexts at h
  obtain ⟨i, hi, h⟩ := List.mem_filterMap.1 h
  obtain ⟨c, hc, h⟩ := Option.bind_eq_some_iff.1 h
  obtain ⟨r, hr, rfl⟩ := Option.map_eq_some_iff.1 h
  rcases given_eq (sel c.attrs) with ⟨hg, -⟩ | ⟨r', h1, h2, h3⟩
  · rw [hg] at hr; simp at hr
  · rw [h3] at hr; cases hr
    exact ⟨h1, i, hi, c, hc, h2⟩

theorem contexts_sub (sel : Attrs → Option String) (l : List Input) (k : Seq) :
    ((contexts sel l k).map Prod.fst).Sublist (l.map Input.script) := by
  unfold contexts
  induction l with
  | nil => simp
  | cons i l ih =>
    rw [List.map_cons, List.filterMap_cons]
    split
    · exact ih.cons _
    · rename_i p hp
      rw [List.map_cons]
      obtain ⟨c, hc, h⟩ := Option.bind_eq_some_iff.1 hp
      obtain ⟨r, hr, rfl⟩ := Option.map_eq_some_iff.1 h
      exact ih.cons₂ _

/-- The contexts of the merge. -/
structure CInv (done : List Input) (s : SState) : Prop where
  prev : s.prev = done.map Input.script
  whenR : ∀ k e, s.m.lgr.rep.lookup k = some e → Combined (contexts Attrs.whenR done k) e.attrs.whenR
  notWhenR : ∀ k e, s.m.lgr.rep.lookup k = some e → Combined (contexts Attrs.notWhenR done k) e.attrs.notWhenR

theorem contexts_append (sel : Attrs → Option String) (l : List Input) (i : Input) (k : Seq) :
    contexts sel (l ++ [i]) k = contexts sel l k ++ ((i.lgr.rep.lookup k).bind (fun c =>
      (given (sel c.attrs)).map (fun r => (i.script, r)))).toList := by
  unfold contexts
  rw [List.filterMap_append]
  congr 1

theorem contexts_none {sel : Attrs → Option String} {l : List Input} {k : Seq}
    (h : ∀ i ∈ l, ¬ In i.lgr k) : contexts sel l k = [] := by
  rw [List.eq_nil_iff_forall_not_mem]
  intro p hp
  obtain ⟨-, i, hi, c, hc, -⟩ := contexts_mem hp
  exact h i hi ⟨c, hc⟩

theorem combined_new (script : String) (o : Option String) :
    Combined ((given o).map (fun r => (script, r))).toList (preRule script o) := by
  rcases given_eq o with ⟨hg, ho⟩ | ⟨r, hre, rfl, hg⟩
  · rw [hg]
    refine ⟨fun _ => ?_, by simp⟩
    rcases ho with rfl | rfl
    · rfl
    · simp [preRule]
  · rw [hg]
    refine ⟨by simp, fun _ => ⟨r, by simp, ?_⟩⟩
    simp [preRule, hre, pre]

theorem ctx_step {ord : SetOrder} {valid : String → Bool} {D W : Prop} {done : List Input}
    {s s' : SState} {i : Input} (h0 : SInv D W done s) (hc : CInv done s) (hi : Good i)
    (ha : Apart (done ++ [i])) (h : mergeOne ord valid s i = (s', .ok ())) : CInv (done ++ [i]) s' := by
  unfold mergeOne at h
  generalize he : i.lgr.expandRanges i.db = r at h
  obtain ⟨g, o⟩ := r
  cases o with
  | error e => simp at h
  | ok u =>
    obtain ⟨e1, e2, -, e4⟩ := C30.expanded hi.wf hi.intact he
    dsimp only at h
    generalize hm : mergeReferences valid g.refs s.m.lgr.refs ((dget s.maps i.script).getD []) = r at h
    obtain ⟨⟨rm, map⟩, o⟩ := r
    cases o with
    | error e => simp at h
    | ok u =>
      dsimp only at h
      generalize hcm : mergeChars ord i g map s.prev { s.m with lgr := { s.m.lgr with refs := rm } } = r at h
      obtain ⟨m, o⟩ := r
      cases o with
      | error e => simp at h
      | ok u =>
        simp only [Prod.mk.injEq, and_true] at h
        have hsrc' : ∀ {k c}, g.rep.lookup k = some c → ∃ d, i.lgr.rep.lookup k = some d ∧ c = C06.noRange d := by
          intro k c hc
          rw [e4] at hc
          cases hd : i.lgr.rep.lookup k with
          | none => rw [hd] at hc; simp at hc
          | some d => rw [hd] at hc; simp at hc; exact ⟨d, rfl, hc.symm⟩
        have hps : Plain g := by
          intro k c hc
          obtain ⟨d, -, rfl⟩ := hsrc' hc
          rfl
        have hr := mergeChars_spec (m := { s.m with lgr := { s.m.lgr with refs := rm } }) e1 hps h0.inv.wf
          h0.inv.plain hcm
        have hnd : s.prev.Nodup := by
          have := ha.nodup
          rw [List.map_append, List.nodup_append] at this
          rw [hc.prev]; exact this.1
        have hsc : ∀ p ∈ s.prev, ∀ q ∈ s.prev, ∀ x, p ≠ q ++ "-" ++ x := by
          rw [hc.prev]
          intro p hp q hq x
          obtain ⟨a, ha1, rfl⟩ := List.mem_map.1 hp
          obtain ⟨b, hb1, rfl⟩ := List.mem_map.1 hq
          exact ha.scripts b (by simp [hb1]) a (by simp [ha1]) x
        have hsub : ∀ sel k, ((contexts sel done k).map Prod.fst).Sublist s.prev := by
          intro sel k; rw [hc.prev]; exact contexts_sub sel done k
        rw [← h]
        refine ⟨by simp [hc.prev], ?_, ?_⟩
        · intro k e he
          rw [contexts_append]
          cases hs : g.rep.lookup k with
          | none =>
            obtain ⟨o, ho, ha, -, -⟩ := hr.rest k e hs he
            have hnone : i.lgr.rep.lookup k = none := by
              rw [e4] at hs; simpa using hs
            rw [ha, hnone]
            simpa using hc.whenR k o ho
          | some c =>
            obtain ⟨e0, hj, hat, -, -⟩ := hr.done k c e hs he
            obtain ⟨d, hd, rfl⟩ := hsrc' hs
            rw [hat, hd]
            cases ho : ({ s.m.lgr with refs := rm } : LGR).rep.lookup k with
            | none =>
              obtain ⟨-, -, n3, -⟩ := hj.new ho
              rw [n3, contexts_none (l := done) (k := k) (fun j hj hin => by
                obtain ⟨x, hx⟩ := (h0.inv.node k).2 ⟨j, hj, hin⟩
                rw [show s.m.lgr.rep.lookup k = none from ho] at hx; simp at hx)]
              exact combined_new _ _
            | some o =>
              obtain ⟨-, -, n3, -⟩ := hj.both o ho
              refine combined_step (hc.whenR k o ho) (fun p hp => (contexts_mem hp).1) (hsub _ k) hnd hsc ?_ n3
              intro r hr p hp x he
              obtain ⟨-, j, hj1, c', hc', hw⟩ := contexts_mem hr
              rw [hc.prev] at hp
              obtain ⟨a, ha1, rfl⟩ := List.mem_map.1 hp
              exact (ha.names a (by simp [ha1]) j (by simp [hj1]) k c' hc' x).1 (by rw [hw, he])
        · intro k e he
          rw [contexts_append]
          cases hs : g.rep.lookup k with
          | none =>
            obtain ⟨o, ho, ha, -, -⟩ := hr.rest k e hs he
            have hnone : i.lgr.rep.lookup k = none := by
              rw [e4] at hs; simpa using hs
            rw [ha, hnone]
            simpa using hc.notWhenR k o ho
          | some c =>
            obtain ⟨e0, hj, hat, -, -⟩ := hr.done k c e hs he
            obtain ⟨d, hd, rfl⟩ := hsrc' hs
            rw [hat, hd]
            cases ho : ({ s.m.lgr with refs := rm } : LGR).rep.lookup k with
            | none =>
              obtain ⟨-, -, -, n4⟩ := hj.new ho
              rw [n4, contexts_none (l := done) (k := k) (fun j hj hin => by
                obtain ⟨x, hx⟩ := (h0.inv.node k).2 ⟨j, hj, hin⟩
                rw [show s.m.lgr.rep.lookup k = none from ho] at hx; simp at hx)]
              exact combined_new _ _
            | some o =>
              obtain ⟨-, -, -, n4⟩ := hj.both o ho
              refine combined_step (hc.notWhenR k o ho) (fun p hp => (contexts_mem hp).1) (hsub _ k) hnd hsc ?_ n4
              intro r hr p hp x he
              obtain ⟨-, j, hj1, c', hc', hw⟩ := contexts_mem hr
              rw [hc.prev] at hp
              obtain ⟨a, ha1, rfl⟩ := List.mem_map.1 hp
              exact (ha.names a (by simp [ha1]) j (by simp [hj1]) k c' hc' x).2 (by rw [hw, he])

theorem Apart.sub {l l' : List Input} (h : Apart l) (hs : l'.Sublist l) : Apart l' :=
  ⟨(hs.map _).nodup h.nodup, fun i hi j hj => h.scripts i (hs.subset hi) j (hs.subset hj),
    fun i hi j hj => h.names i (hs.subset hi) j (hs.subset hj)⟩

theorem ctx_loop {ord : SetOrder} {valid : String → Bool} (l : List Input) :
    ∀ (done : List Input) (s s' : SState), SInv False False done s → CInv done s →
      (∀ i ∈ l, Good i) → Apart (done ++ l) →
      forEach (mergeOne ord valid) s l = (s', .ok ()) → CInv (done ++ l) s' := by
  induction l with
  | nil =>
    intro done s s' _ hc _ _ h
    simp only [forEach, Prod.mk.injEq, and_true] at h
    rw [← h]; simpa using hc
  | cons i l ih =>
    intro done s s' h0 hc hg hd h
    obtain ⟨s1, h1, h2⟩ := forEach_cons_ok h
    have := ih (done ++ [i]) s1 s' (mergeOne_spec h0 (hg i (by simp)) False.elim False.elim h1)
      (ctx_step h0 hc (hg i (by simp)) (hd.sub (by simp)) h1) (fun j hj => hg j (by simp [hj]))
      (by simpa using hd) h2
    simpa using this

/-- **C98** If no script followed by a hyphen begins another script or the name of a context: the LGRs which give
a code point a context agree on the rule, and its name in the merge is that rule after the scripts of those
LGRs, in reverse order. -/
theorem merge_contexts (ord : SetOrder) (valid : String → Bool) (l : List Input) (hg : ∀ i ∈ l, Good i)
    (ha : Apart l) (m : LGR) (h : mergeSet ord valid l = .ok m) (k : Seq) (e : CharObj)
    (he : m.rep.lookup k = some e) :
    Combined (contexts Attrs.whenR (ordered l) k) e.attrs.whenR ∧
      Combined (contexts Attrs.notWhenR (ordered l) k) e.attrs.notWhenR := by
  have hp : (ordered l).Perm l := sortAsc_perm _ _
  have ha' : Apart (ordered l) :=
    ⟨((hp.map _).nodup_iff).2 ha.nodup,
      fun i hi j hj => ha.scripts i (hp.mem_iff.1 hi) j (hp.mem_iff.1 hj),
      fun i hi j hj => ha.names i (hp.mem_iff.1 hi) j (hp.mem_iff.1 hj)⟩
  unfold mergeSet at h
  split at h
  · simp at h
  · rename_i s hs
    have h1 := (mergeAll_spec hg hs).1
    have hr := reread_spec h1.wf h1.plain h
    have hc := ctx_loop (ordered l) [] {} s ⟨minv_nil _, by simp, False.elim⟩ ⟨rfl, by
        intro k e he
        rw [show ({} : SState).m.lgr.rep.lookup k = none from empty_lookup k] at he
        simp at he, by
        intro k e he
        rw [show ({} : SState).m.lgr.rep.lookup k = none from empty_lookup k] at he
        simp at he⟩ (fun i hi => hg i (hp.mem_iff.1 hi)) (by simpa using ha') hs
    simp only [List.nil_append] at hc
    obtain ⟨c, hcl, hag⟩ := hr.entry k e he
    rw [hag.attrs]
    exact ⟨hc.whenR k c hcl, hc.notWhenR k c hcl⟩

end Lgr.Props.C98

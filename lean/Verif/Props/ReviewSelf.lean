import Verif.Props.ReviewResults

/-!
# C78: review of an LGR against itself
-/

namespace Lgr.Props.C78
open Lgr Review Repertoire C89

/-- The overall result of the summary of matches is a match. -/
theorem overall {l : List (Result × String)} (h : ∀ p ∈ l, p.1 = .matched) : (handleReport l).overall = .matched := by
  rcases (C38.overall_worst l).2 with h1 | ⟨p, hp, h1⟩
  · exact h1
  · rw [← h1]; exact h p hp

/-- **C78** The repertoire: every code point of the LGR is a match. -/
theorem repertoire {order : List String → List String} (ho : order [] = []) {r : Repertoire} (h : WF r) :
    (∀ e ∈ repertoireReport order r r, e.result = .matched ∧ e.inIdn = true ∧ e.inRef = true) ∧
    ∀ k, (r.lookup k).isSome → ∃ e ∈ repertoireReport order r r, e.cp = k := by
  constructor
  · intro e he
    unfold repertoireReport at he
    simp only [List.mem_map] at he
    obtain ⟨k, hk, rfl⟩ := he
    rw [mem_sortAsc, List.mem_dedup, List.mem_append, or_self, C80.mem_keys] at hk
    obtain ⟨c, hc⟩ := Option.isSome_iff_exists.1 hk
    have : loneTags c.attrs.tags c.attrs.tags = [] := by simp [loneTags, minus]
    simp [hc, compareChar, this, ho, tagLoop]
  · intro k hk
    refine ⟨_, List.mem_map.2 ⟨k, ?_, rfl⟩, rfl⟩
    rw [mem_sortAsc, List.mem_dedup, List.mem_append, or_self, C80.mem_keys, C80.dictOf_eq h]
    exact hk

/-- **C78** Classes: every class listed is a match, and each class with members is listed. -/
theorem classes (m : Members) (rep : List Nat) :
    ∃ l, classesReport m m rep rep = .ok l ∧ (∀ e ∈ l, e.result = .matched) ∧
      ∀ n s, dget m n = some s → s ≠ [] → ∃ e ∈ l, e.name = n := by
  have key : ∀ ns : List String, ∃ l, classLoop m m rep rep ns = .ok l ∧ (∀ e ∈ l, e.result = .matched) ∧
      ∀ n ∈ ns, (dget m n).getD [] ≠ [] → ∃ e ∈ l, e.name = n := by
    intro ns
    induction ns with
    | nil => exact ⟨[], rfl, by simp, by simp⟩
    | cons n ns ih =>
      obtain ⟨l, h1, h2, h3⟩ := ih
      have hd : differ ((dget m n).getD []) ((dget m n).getD []) = false := by simp [differ, minus]
      by_cases hn : (dget m n).getD [] = [] ∧ meets ((dget m n).getD []) rep = false
      · refine ⟨l, by simp only [classLoop, classEntry, if_pos hn, h1]; rfl, h2, ?_⟩
        intro j hj hj'
        rcases List.mem_cons.1 hj with rfl | hj
        · exact absurd hn.1 hj'
        · exact h3 j hj hj'
      · refine ⟨_, by simp only [classLoop, classEntry, if_neg hn, classVerdict, hd, if_true, h1]; rfl, ?_, ?_⟩
        · intro e he
          rcases List.mem_cons.1 he with rfl | he
          · rfl
          · exact h2 e he
        · intro j hj hj'
          rcases List.mem_cons.1 hj with rfl | hj
          · exact ⟨_, List.mem_cons_self, rfl⟩
          · obtain ⟨e, he, he'⟩ := h3 j hj hj'
            exact ⟨e, List.mem_cons_of_mem _ he, he'⟩
  obtain ⟨l, h1, h2, h3⟩ := key (sortAsc classKey (m.map Prod.fst ++ m.map Prod.fst).dedup)
  refine ⟨l, h1, h2, ?_⟩
  intro n s hs hne
  refine h3 n ?_ (by rw [hs]; exact hne)
  rw [mem_sortAsc, List.mem_dedup, List.mem_append, or_self, C82.mem_names, hs]; rfl

/-- **C78** Actions: all match; so does their sequence if there are actions. -/
theorem actions_partial (l : List Action) :
    (∀ e ∈ (actionsReport l l).1, e.result = .matched) ∧ (l ≠ [] → (actionsReport l l).2 = .matched) := by
  have hall : ∀ a ∈ l, (hasAction l a && hasAction l a) = true := by
    intro a ha
    rw [Bool.and_self, C81.hasAction_iff]; exact ⟨a, ha, .refl a⟩
  have hf : l.filter (fun a => hasAction l a && hasAction l a) = l := List.filter_eq_self.2 hall
  constructor
  · intro e he
    unfold actionsReport at he
    simp only [hf] at he
    rcases List.mem_append.1 he with he | he
    · obtain ⟨p, hp, rfl⟩ := List.mem_map.1 he
      have : hasAction l p.2 = true := by
        have := hall p.2 (List.of_mem_zip (by unfold numbered at hp; exact hp)).2
        simpa using this
      simp [this]
    · obtain ⟨p, hp, rfl⟩ := List.mem_map.1 he
      rw [List.mem_filter] at hp
      have := hall p.2 (List.of_mem_zip (by have := hp.1; unfold numbered at this; exact this)).2
      simp at this
      simp [this] at hp
  · intro hl
    have hs : sameActions l l = true := C81.sameActions_iff.2 (List.forall₂_same.2 (fun a _ => .refl a))
    unfold actionsReport
    simp only [hf]
    rw [if_pos ⟨hl, hs⟩]

/-- **C78** Rules: all match if the LGR has no ranges. -/
theorem rules_partial {r : Repertoire} (h : WF r)
    (hb : ∀ k c, r.lookup k = some c → c.attrs.whenR = none ∨ c.attrs.notWhenR = none)
    (hn : ∀ k c, r.lookup k = some c → c.range = none) (ri : List (String × String)) :
    ∀ e ∈ wleReport ri ri r r, e.result = .matched := by
  intro e he
  obtain ⟨-, h2, h3⟩ := C82.rules_partial h h hb hn hn ri ri
  have hin : (dget ri e.name).isSome := by
    have := (h2 e.name).1 (List.mem_map_of_mem he)
    rwa [or_self] at this
  exact ((h3 e he).2.2 .matched).2 ⟨hin, rfl, fun _ => Iff.rfl⟩

/-- **C78** Language tags: an LGR with one tag matches. -/
theorem tag_partial (info : String → TagInfo) (t : String) :
    tagsReport info [t] [t] = [(some t, [(t, .matched, "Exact match")])] := by
  simp [tagsReport, compareTag, sortAsc]

/-- Verdict on the same data. -/
theorem verdict_self (order : List Variant → List Variant) {d : VData} (h : d.fwd ≠ []) (rev inRep : Bool) :
    variantVerdict order false false d d rev inRep = .ok (.matched, "Exact match (including type, conditional variant rule)") := by
  simp [variantVerdict, h, checkRules, rulesOf, checkType, typesOf, decideChecks]

variable {order : List Variant → List Variant} {cps : List Seq → List Seq} {r : Repertoire}

theorem setStep_self (h : WF r) (ho : ∀ l, (order l).Perm l) (hcps : ∀ l, (cps l).Perm l) {s : List Seq} (hs : s ≠ [])
    {m : Option Seq} {a : Seq} {st st' : SetState} (hst : st.ri = st.rr)
    (hall : ∀ e ∈ st.entries, e.fwd.1 = .matched ∧ e.rev.1 = .matched)
    (he : setStep order cps r r s s m st a = .ok st') :
    st'.ri = st'.rr ∧ ∀ e ∈ st'.entries, e.fwd.1 = .matched ∧ e.rev.1 = .matched := by
  unfold setStep at he
  have hent : ∀ vs ks es, (∀ k d, dget vs k = some d → d.fwd ≠ []) → (∀ k ∈ ks, (dget vs k).isSome) →
      entriesFor order r (decide (s = [])) (decide (s = [])) m a vs vs ks = .ok es →
      ∀ e ∈ es, e.fwd.1 = .matched ∧ e.rev.1 = .matched := by
    intro vs ks
    induction ks with
    | nil => intro es _ _ h1; simp only [entriesFor] at h1; cases h1; simp
    | cons k ks ih =>
      intro es h1 h2 h3
      simp only [entriesFor] at h3
      split at h3
      · cases h3
      · rename_i e he
        split at h3
        · cases h3
        · rename_i es' hes'
          injection h3 with h3; subst h3
          obtain ⟨d, hd⟩ := Option.isSome_iff_exists.1 (h2 k (by simp))
          have hne := h1 k d hd
          have he' : e.fwd.1 = .matched ∧ e.rev.1 = .matched := by
            rw [hd] at he
            obtain ⟨p1, p2, -⟩ := C90.entry_parts he
            simp only [Option.getD_some, hs, decide_false, verdict_self order hne] at p1 p2
            injection p1 with p1
            injection p2 with p2
            rw [← p1, ← p2]; exact ⟨rfl, rfl⟩
          intro x hx
          rcases List.mem_cons.1 hx with rfl | hx
          · exact he'
          · exact ih es' h1 (fun j hj => h2 j (by simp [hj])) hes' x hx
  cases hc : r.getChar a with
  | error e =>
    simp only [hc] at he
    split at he
    · cases he
    · rename_i es hes
      injection he with he; subst he
      refine ⟨hst, ?_⟩
      have hnil : cps [] = [] := List.perm_nil.1 (hcps [])
      simp only [List.map_nil, List.append_nil, List.dedup_nil, hnil, entriesFor] at hes
      injection hes with hes; subst hes
      simpa using hall
  | ok c =>
    have hl := getChar_ok.1 hc
    have hcp := lookup_cp hl
    subst hcp
    simp only [hc] at he
    split at he
    · cases he
    · rename_i es hes
      injection he with he; subst he
      rw [← hst] at hes ⊢
      refine ⟨rfl, ?_⟩
      intro e he
      rcases List.mem_append.1 he with he | he
      · exact hall e he
      · refine hent (variantData order r c st.ri).1 _ es ?_ ?_ hes e he
        · intro k d hd
          exact ((data_spec h ho hl st.ri).1.fwds k d hd).1
        · intro k hk
          rw [(hcps _).mem_iff, List.mem_dedup, List.mem_append, or_self, C80.mem_keys] at hk
          exact hk

theorem setLoop_self (h : WF r) (ho : ∀ l, (order l).Perm l) (hcps : ∀ l, (cps l).Perm l) {s : List Seq} (hs : s ≠ [])
    {m : Option Seq} (l : List Seq) (st st' : SetState) (hst : st.ri = st.rr)
    (hall : ∀ e ∈ st.entries, e.fwd.1 = .matched ∧ e.rev.1 = .matched)
    (he : setLoop order cps r r s s m st l = .ok st') :
    ∀ e ∈ st'.entries, e.fwd.1 = .matched ∧ e.rev.1 = .matched := by
  induction l generalizing st with
  | nil => simp only [setLoop] at he; injection he with he; subst he; exact hall
  | cons a l ih =>
    simp only [setLoop] at he
    split at he
    · cases he
    · rename_i s1 h1
      obtain ⟨h2, h3⟩ := setStep_self h ho hcps hs hst hall h1
      exact ih s1 h2 h3 he

theorem pair_self (s : Sets) : pairSets s s = .ok (s, s) := by
  have : ((s.map Prod.fst).filter (fun k => decide (k ∉ s.map Prod.fst))) = [] := by
    rw [List.filter_eq_nil_iff]
    intro k hk
    simpa using hk
  unfold pairSets
  simp only [this, pairOuter, List.filter_nil, List.foldl_nil]

/-- **C78** Variant sets: the report is made without exception, each set is compared with itself, and each
mapping is a match in both directions. -/
theorem variant_sets (h : WF r) (ho : ∀ l, (order l).Perm l) (hcps : ∀ l, (cps l).Perm l) :
    ∃ l, variantSetsReport order cps r r = .ok l ∧
      (∀ e ∈ l, e.idn = e.ref ∧ ∀ x ∈ e.report, x.fwd.1 = .matched ∧ x.rev.1 = .matched) ∧
      ∀ glyph, (handleReport (setsResults glyph l)).overall = .matched := by
  obtain ⟨S, hS⟩ : ∃ S, S = setsById (r.getVariantSets true) := ⟨_, rfl⟩
  have hmem : ∀ k s, dget S k = some s → s ∈ r.getVariantSets true := by
    intro k s hs
    rw [hS] at hs
    exact (C84.byId_mem _ _ _ hs).1
  have hset : ∀ k, ∃ o, setReport order cps r r ((dget S k).getD []) ((dget S k).getD []) = .ok o ∧
      (∀ e, o = some e → e.idn = (dget S k).getD [] ∧ e.ref = (dget S k).getD []) ∧
      ((∃ x, (x ∈ (dget S k).getD [] ∨ x ∈ (dget S k).getD []) ∧ (r.lookup x).isSome) → o.isSome) := by
    intro k
    apply C84.setReport_total h
    · cases hk : dget S k with
      | none => simp
      | some s => exact (C84.set_facts h (hmem k s hk)).1
    · cases hk : dget S k with
      | none => simp
      | some s => exact (C84.set_facts h (hmem k s hk)).2.1
    · intro h1 x hx
      rw [h1] at hx; cases hx
  obtain ⟨l, h1, h2, -⟩ := C84.setsLoop_total (order := order) (cps := cps) (idn := r) (ref := r) (si := S) (sr := S)
    (sortAsc id (S.map Prod.fst ++ S.map Prod.fst).dedup) hset
  have hrep : variantSetsReport order cps r r = .ok l := by
    unfold variantSetsReport
    rw [← hS, pair_self]; exact h1
  have hmat : ∀ e ∈ l, e.idn = e.ref ∧ ∀ x ∈ e.report, x.fwd.1 = .matched ∧ x.rev.1 = .matched := by
    intro e he
    obtain ⟨k, hk, e1, e2⟩ := h2 e he
    refine ⟨by rw [e1, e2], ?_⟩
    obtain ⟨s, t, h3⟩ := setsLoop_from _ l h1 e he
    have h3' := h3
    obtain ⟨e3, e4, -⟩ := setReport_good h h ho hcps h3
    have hst : s = t := by rw [← e3, ← e4, e1, e2]
    subst hst
    have hne : s ≠ [] := by
      rw [mem_sortAsc, List.mem_dedup, List.mem_append, or_self, C80.mem_keys] at hk
      obtain ⟨u, hu⟩ := Option.isSome_iff_exists.1 hk
      rw [← e3, e1, hu]
      obtain ⟨_, _, h4, _⟩ := C84.set_facts h (hmem k u hu)
      exact List.ne_nil_of_mem h4
    unfold setReport at h3'
    split at h3'
    · cases h3'
    · split at h3'
      · cases h3'
      · rename_i es rel hes
        split at h3'
        · cases h3'
        · injection h3' with h3'
          injection h3' with h3'
          subst h3'
          unfold setEntries at hes
          split at hes
          · cases hes
          · split at hes
            · cases hes
            · rename_i st hl
              injection hes with hes
              injection hes with hes1 hes2
              subst hes1
              intro x hx
              exact setLoop_self h ho hcps hne _ _ st (by rfl) (by simp) hl x ((mem_sortAsc _).1 hx)
  refine ⟨l, hrep, hmat, fun glyph => overall ?_⟩
  intro p hp
  simp only [setsResults, List.mem_flatMap] at hp
  obtain ⟨e, he, x, hx, hp⟩ := hp
  obtain ⟨f, b⟩ := (hmat e he).2 x hx
  simp only [List.mem_cons, List.not_mem_nil, or_false] at hp
  rcases hp with rfl | rfl
  · exact f
  · exact b

/-- **C78** is violated: an LGR without actions, -/
theorem no_actions : (actionsReport [] []).2 = .manualCheck := rfl

/-- an LGR with two languages, -/
theorem two_tags (info : String → TagInfo)
    (h1 : info "hi" = { language := "hi", script := "", unknown := false, suppress := false, langScript := none })
    (h2 : info "mr" = { language := "mr", script := "", unknown := false, suppress := false, langScript := none }) :
    ∃ p ∈ tagsReport info ["hi", "mr"] ["hi", "mr"], ∃ q ∈ p.2, q.2.1 = .review := by
  refine ⟨(some "hi", sortAsc (fun x => x.1) (["hi", "mr"].map (fun u => (u, compareTag info (some "hi") u)))), ?_,
    ("mr", compareTag info (some "hi") "mr"), ?_, ?_⟩
  · unfold tagsReport
    have : sortAsc id ["hi", "mr"] = ["hi", "mr"] := by decide +kernel
    rw [this]
    simp
  · rw [mem_sortAsc]; simp
  · simp [compareTag, h1, h2]

/-- and an LGR with a range the code points of which have a context rule. -/
theorem range_rule : ∃ e ∈ wleReport [("r", "x")] [("r", "x")] (C82.ranged { whenR := some "r" }) (C82.ranged { whenR := some "r" }),
    e.result = .manualCheck := by
  refine ⟨⟨"r", true, true, .manualCheck, "Check the content of the rule"⟩, by decide +kernel, rfl⟩

/-- An LGR with an asymmetric variant. -/
example : (variantSetsReport id id (LGR.run {} [C84.cp 97, C84.var 97 98]).rep (LGR.run {} [C84.cp 97, C84.var 97 98]).rep).toOption.map
    (·.map (fun e => e.report.map (fun x => (x.source, x.dest, x.fwd.1)))) =
      some [[([97], [98], .matched)]] := by
  decide +kernel

end Lgr.Props.C78

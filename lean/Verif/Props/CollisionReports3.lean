import Verif.Props.CollisionReports2

/-!
# C113: `collision`
-/

namespace Lgr.Props.C113
open Lgr Collisions LabelInput C32 C112

/-- The lines written before the collisions. -/
inductive Early : Line → Prop
  | text (s : String) : s ≠ "No collision in the list of labels" → Early (.text s)
  | labelError (l : Seq) : Early (.labelError l)
  | tldError (l : Seq) : Early (.tldError l)
  | isTld (l : Seq) : Early (.isTld l)
  | notIn (n : Nat) (l : Seq) : Early (.notIn n l)
  | skipped (n : Nat) (l : Seq) : Early (.skipped n l)

/-- The lines of the collisions. -/
inductive Collides : Line → Prop
  | none : Collides noneInList
  | index (k : Seq) : Collides (.index k)
  | within (b : Bool) (p q : Seq × Cat) : Collides (.within b p q)

/-- The lines of the dump. -/
inductive Dumps : Line → Prop
  | dump (p : Seq) : Dumps (.dump p)
  | dumped (p : Seq) (c : Cat) (x : Seq) : Dumps (.dumped p c x)
  | disp (p x : Seq) (s : String) : Dumps (.dumpedDisp p x s)
  | count (p : Seq) (s : String) (n : Nat) : Dumps (.count p s n)

theorem early_not_collides {o : Line} (h : Early o) : ¬ Collides o := by
  intro h2
  cases h <;> cases h2
  rename_i hs
  exact hs rfl

theorem dumps_not_collides {o : Line} (h : Dumps o) : ¬ Collides o := by
  intro h2
  cases h <;> cases h2

theorem early_not_dumps {o : Line} (h : Early o) : ¬ Dumps o := by
  intro h2
  cases h <;> cases h2

theorem complete_collides {labels tlds : List Seq} {d : Collisions.Indexes} {o : Line}
    (h : o ∈ (completeOutput labels tlds d).1) : Collides o := by
  unfold completeOutput say at h
  simp only [List.mem_append, List.mem_flatMap] at h
  rcases h with ⟨g, -, h⟩ | h
  · unfold completeGroup at h
    simp only [List.mem_append, List.mem_singleton] at h
    rcases h with (h | h) | h
    · rw [h]; exact .index _
    · split at h
      · obtain ⟨p, -, rfl⟩ := List.mem_map.1 h
        exact .within _ _ _
      · simp at h
    · split at h
      · simp at h
      · obtain ⟨p, -, rfl⟩ := List.mem_map.1 h
        exact .within _ _ _
  · split at h
    · simp at h
    · rw [List.mem_singleton] at h; rw [h]; exact .none

theorem next_mem {a b : Report} {o : Line} (h : o ∈ (a.next b).1) : o ∈ a.1 ∨ o ∈ b.1 := by
  unfold Report.next at h
  split at h
  · exact .inl h
  · exact List.mem_append.1 h

theorem eachR_mem {α : Type} {f : α → Report} : ∀ {l : List α} {o : Line}, o ∈ (eachR f l).1 →
    ∃ a ∈ l, o ∈ (f a).1
  | [], o, h => by simp [eachR, say] at h
  | a :: l, o, h => by
    rcases next_mem h with h | h
    · exact ⟨a, by simp, h⟩
    · obtain ⟨b, h1, h2⟩ := eachR_mem h
      exact ⟨b, by simp [h1], h2⟩

theorem dump_dumps {lower : String → String} {d : Collisions.Indexes} {o : Line} (h : o ∈ (fullDump lower d).1) :
    Dumps o := by
  obtain ⟨es, -, h⟩ := eachR_mem h
  obtain ⟨p, -, h⟩ := eachR_mem h
  unfold dumpPrimary at h
  rcases next_mem h with h | h
  · simp only [say, List.mem_singleton] at h; rw [h]; exact .dump _
  rcases next_mem h with h | h
  · obtain ⟨e, -, h⟩ := eachR_mem h
    unfold dumpEntry at h
    rcases next_mem h with h | h
    · simp only [say, List.mem_singleton] at h; rw [h]; exact .dumped _ _ _
    · split at h
      · simp only [say, List.mem_singleton] at h; rw [h]; exact .disp _ _ _
      · simp at h
  · split at h
    · simp only [say] at h
      obtain ⟨c, -, rfl⟩ := List.mem_map.1 h
      exact .count _ _ _
    · simp at h

/-- A report with other lines around. -/
theorem Reported.around {index : Seq → Except Err Seq} {L T : Seq → Prop} {b : Bool} {out out' : List Line}
    (h : Reported index L T b out) (hb : ∀ o, Collides o → (o ∈ out' ↔ o ∈ out)) : Reported index L T b out' := by
  refine ⟨fun x y => ?_, fun c x c1 y c2 hm => ?_, ?_, fun k => ?_⟩
  · rw [← h.pairs x y]
    simp only [hb _ (.within _ _ _)]
  · exact h.named c x c1 y c2 ((hb _ (.within _ _ _)).1 hm)
  · rw [hb _ .none]; exact h.nothing
  · rw [hb _ (.index _)]; exact h.indexes k

theorem Dumped.around {index : Seq → Except Err Seq} {dispo : Dispo} {lower : String → String} {quiet : Bool}
    {L T : Seq → Prop} {out out' : List Line} (h : Dumped index dispo lower quiet L T out)
    (hb : ∀ o, Dumps o → (o ∈ out' ↔ o ∈ out)) : Dumped index dispo lower quiet L T out' := by
  refine ⟨fun p => ?_, fun p c x => ?_, fun p x s => ?_, fun p s n => ?_⟩
  · rw [hb _ (.dump _)]; exact h.dump p
  · rw [hb _ (.dumped _ _ _)]; exact h.dumped p c x
  · rw [hb _ (.disp _ _ _)]; exact h.disps p x s
  · rw [hb _ (.count _ _ _)]; exact h.counts p s n

theorem Reported.congr {index : Seq → Except Err Seq} {L L' T T' : Seq → Prop} {b : Bool} {out : List Line}
    (h : Reported index L T b out) (hL : ∀ x, L x ↔ L' x) (hT : ∀ x, T x ↔ T' x) : Reported index L' T' b out := by
  have e1 : L = L' := funext fun x => propext (hL x)
  have e2 : T = T' := funext fun x => propext (hT x)
  rw [← e1, ← e2]; exact h

/-- The TLDs read. -/
def Tld (tlds : Option (List Read)) (x : Seq) : Prop := ∃ t, tlds = some t ∧ Input t x

/-- The lines at the beginning of the report. -/
structure Opening (index : Seq → Except Err Seq) (rs : List Read) (tlds : Option (List Read)) (out : List Line) :
    Prop where
  isTld : ∀ x, .isTld x ∈ out ↔ Input rs x ∧ Tld tlds x
  labelError : ∀ x, .labelError x ∈ out ↔ Broken rs x
  tldError : ∀ x, .tldError x ∈ out ↔ ∃ t, tlds = some t ∧ Broken t x
  notIn : ∀ x n, .notIn n x ∈ out ↔ n = 0 ∧ Input rs x ∧ ∃ s, index x = .error (.notInLGR s)

/-- `collision`, when dispositions can be computed for all labels. -/
theorem collision_global (order : List Seq → List Seq) (ho : Order order) (lower : String → String)
    (index : Seq → Except Err Seq) (dispo : Dispo) (hok : ∀ b l w, (dispo b l w).2 = .ok ())
    (hr : Restricted dispo (fun _ => True)) (rs : List Read) (tlds : Option (List Read)) (quiet : Bool)
    (hidx : Indexes index (fun l => Input rs l ∨ Tld tlds l)) :
    (∃ out, collision order lower index dispo rs tlds false quiet = (out, .ok ()) ∧
      Opening index rs tlds out ∧ Reported index (Input rs) (Tld tlds) false out) ∧
    (Lists dispo quiet (fun _ => True) →
      (∀ q k, (Input rs q ∨ Tld tlds q) → index q = .ok k → ∀ v ∈ computed dispo quiet q,
        (Input rs v.1 ∨ Tld tlds v.1) → index v.1 = .ok k) →
      (Mutual index dispo quiet (Input rs) (Tld tlds) →
        ∃ out, collision order lower index dispo rs tlds true quiet = (out, .ok ()) ∧
          Opening index rs tlds out ∧ Reported index (Input rs) (Tld tlds) true out ∧
          Dumped index dispo lower quiet (Input rs) (Tld tlds) out) ∧
      (¬ Mutual index dispo quiet (Input rs) (Tld tlds) →
        ∃ out, collision order lower index dispo rs tlds true quiet = (out, .error .invalidSymmetry) ∧
          Opening index rs tlds out ∧ Reported index (Input rs) (Tld tlds) true out)) := by
  have hl := firsts_nodup (validLabels rs)
  have ml : ∀ x, x ∈ firsts (validLabels rs) ↔ Input rs x := fun x => by rw [mem_firsts, mem_validLabels]
  have ht : (tldSet order tlds).Nodup := by
    cases tlds with
    | none => simp [tldSet]
    | some t => exact ho.nodup _
  have mt : ∀ x, x ∈ (tldSet order tlds) ↔ Tld tlds x := by
    intro x
    unfold Tld
    cases tlds with
    | none => simp [tldSet]
    | some t =>
      simp only [tldSet, ho.mem, mem_validLabels, Option.some.injEq]
      constructor
      · exact fun h => ⟨t, rfl, h⟩
      · rintro ⟨_, rfl, h⟩; exact h
  -- the beginning
  obtain ⟨pre, hpre, hearly, hopen⟩ : ∃ pre : List Line, pre = (badLabels rs).map .labelError ++
      tldLines order (firsts (validLabels rs)) tlds ∧
      (∀ o ∈ pre, Early o) ∧
      ((∀ x, .isTld x ∈ pre ↔ Input rs x ∧ Tld tlds x) ∧ (∀ x, .labelError x ∈ pre ↔ Broken rs x) ∧
        (∀ x, .tldError x ∈ pre ↔ ∃ t, tlds = some t ∧ Broken t x) ∧ (∀ n x, .notIn n x ∉ pre)) := by
    refine ⟨_, rfl, ?_, ?_⟩
    · intro o hO
      rw [List.mem_append] at hO
      rcases hO with hO | hO
      · obtain ⟨x, -, rfl⟩ := List.mem_map.1 hO
        exact .labelError _
      · cases tlds with
        | none => simp [tldLines] at hO
        | some t =>
          simp only [tldLines, List.mem_append] at hO
          rcases hO with hO | hO
          · obtain ⟨x, -, rfl⟩ := List.mem_map.1 hO
            exact .tldError _
          · split at hO
            · simp at hO
            · rcases List.mem_cons.1 hO with hO | hO
              · rw [hO]; exact .text _ (by decide)
              · obtain ⟨x, -, rfl⟩ := List.mem_map.1 hO
                exact .isTld _
    · cases tlds with
      | none =>
        simp only [tldLines, List.append_nil, List.mem_map, mem_badLabels, Tld]
        refine ⟨fun x => ?_, fun x => ?_, fun x => ?_, fun n x => ?_⟩ <;> simp
      | some t =>
        unfold tldLines
        dsimp only
        have hb : ∀ x, x ∈ sortAsc id (order ((firsts (validLabels rs)).filter (fun l => decide (l ∈
            order (validLabels t))))) ↔ Input rs x ∧ Input t x := by
          intro x
          rw [mem_sortAsc, ho.mem, List.mem_filter, decide_eq_true_eq, ml, ho.mem, mem_validLabels]
        generalize sortAsc id (order ((firsts (validLabels rs)).filter (fun l => decide (l ∈
            order (validLabels t))))) = both at hb
        have hif : ∀ o, o ∈ (if both = [] then [] else Line.text "Labels that are TLDs" :: both.map .isTld) ↔
            (both ≠ [] ∧ o = .text "Labels that are TLDs") ∨ ∃ x ∈ both, o = .isTld x := by
          intro o
          split
          · rename_i h; simp [h]
          · rename_i h
            simp only [List.mem_cons, List.mem_map, h, ne_eq, not_false_eq_true, true_and]
            refine or_congr Iff.rfl ⟨?_, ?_⟩
            · rintro ⟨x, h1, rfl⟩; exact ⟨x, h1, rfl⟩
            · rintro ⟨x, h1, rfl⟩; exact ⟨x, h1, rfl⟩
        simp only [tldLines, List.mem_append, List.mem_map, mem_badLabels, Tld, Option.some.injEq, hif]
        refine ⟨fun x => ?_, fun x => ?_, fun x => ?_, fun n x => ?_⟩
        · rw [show (∃ t', t = t' ∧ Input t' x) ↔ Input t x from ⟨by rintro ⟨_, rfl, h⟩; exact h, fun h => ⟨t, rfl, h⟩⟩,
            ← hb x]
          simp
        · simp
        · simp
        · simp
  have hidx' : Indexes index (fun l => l ∈ firsts (validLabels rs) ∨ l ∈ tldSet order tlds) :=
    fun l hl => hidx l (hl.imp (ml l).1 (mt l).1)
  have main : ∀ showDump d n, generateIndexes index dispo (firsts (validLabels rs))
      (tldSet order tlds) showDump quiet [] = .ok (d, n) →
      ∃ mid : List Line, (∀ o ∈ mid, Early o) ∧ (∀ x, .isTld x ∉ mid) ∧ (∀ x, .labelError x ∉ mid) ∧
        (∀ x, .tldError x ∉ mid) ∧
        (∀ x m, .notIn m x ∈ mid ↔ m = 0 ∧ Input rs x ∧ ∃ s, index x = .error (.notInLGR s)) ∧
        collision order lower index dispo rs tlds showDump quiet =
          (pre ++ mid ++ (completeOutput (firsts (validLabels rs))
            (tldSet order tlds) d).1 ++
            (if showDump then Line.text "Summary" :: (fullDump lower d).1 else []),
          if showDump then (fullDump lower d).2 else .ok ()) := by
    intro showDump d n hgen
    have hn := fun x => not_in_lgr_exact index dispo _ _ showDump quiet [] d n hgen x
    simp only [ml, List.not_mem_nil, or_false] at hn
    refine ⟨(if n = [] then [] else .text "Labels not in LGR" :: (sortAsc id n).map (.notIn 0)) ++
      [.text "Collisions"], ?_, ?_, ?_, ?_, ?_, ?_⟩
    · intro o hO
      rw [List.mem_append] at hO
      rcases hO with hO | hO
      · split at hO
        · simp at hO
        · rcases List.mem_cons.1 hO with hO | hO
          · rw [hO]; exact .text _ (by decide)
          · obtain ⟨x, -, rfl⟩ := List.mem_map.1 hO
            exact .notIn _ _
      · rw [List.mem_singleton] at hO; rw [hO]; exact .text _ (by decide)
    · intro x hO
      split at hO <;> simp at hO
    · intro x hO
      split at hO <;> simp at hO
    · intro x hO
      split at hO <;> simp at hO
    · intro x m
      rw [← hn x]
      split
      · rename_i h; simp [h]
      · simp only [List.cons_append, List.mem_cons, List.mem_append, List.mem_map, mem_sortAsc]
        constructor
        · rintro (h | ⟨y, h1, h2⟩ | h)
          · cases h
          · simp only [Line.notIn.injEq] at h2
            rw [← h2.1, ← h2.2]; exact ⟨rfl, h1⟩
          · simp at h
        · rintro ⟨rfl, h⟩; exact .inr (.inl ⟨x, h, rfl⟩)
    · have hc : completeOutput (firsts (validLabels rs))
            (tldSet order tlds) d =
          say (completeOutput (firsts (validLabels rs))
            (tldSet order tlds) d).1 := rfl
      unfold collision
      simp only [hgen]
      rw [hpre, hc]
      simp only [say_next]
      cases showDump
      · simp [say]
      · simp [say, say_next, Report.next]
  have wrap : ∀ (pre' comp dmp : List Line), (∀ o ∈ pre', Early o) → (∀ o ∈ comp, Collides o) →
      (∀ o ∈ dmp, Dumps o ∨ o = .text "Summary") →
      (∀ o, Collides o → (o ∈ pre' ++ comp ++ dmp ↔ o ∈ comp)) ∧
      (∀ o, Dumps o → (o ∈ pre' ++ comp ++ dmp ↔ o ∈ dmp)) ∧
      (∀ o, Early o → o ≠ .text "Summary" → (o ∈ pre' ++ comp ++ dmp ↔ o ∈ pre')) := by
    intro pre' comp dmp h1 h2 h3
    refine ⟨fun o hO => ?_, fun o hO => ?_, fun o hO hne => ?_⟩
    · simp only [List.mem_append]
      constructor
      · rintro ((h | h) | h)
        · exact absurd hO (early_not_collides (h1 o h))
        · exact h
        · rcases h3 o h with h4 | rfl
          · exact absurd hO (dumps_not_collides h4)
          · exact absurd hO (early_not_collides (.text _ (by decide)))
      · exact fun h => .inl (.inr h)
    · simp only [List.mem_append]
      constructor
      · rintro ((h | h) | h)
        · exact absurd hO (early_not_dumps (h1 o h))
        · exact absurd (h2 o h) (dumps_not_collides hO)
        · exact h
      · exact .inr
    · simp only [List.mem_append]
      constructor
      · rintro ((h | h) | h)
        · exact h
        · exact absurd (h2 o h) (early_not_collides hO)
        · rcases h3 o h with h4 | h4
          · exact absurd h4 (early_not_dumps hO)
          · exact absurd h4 hne
      · exact fun h => .inl (.inl h)
  have opening : ∀ (mid comp dmp : List Line), (∀ o ∈ mid, Early o) → (∀ o ∈ comp, Collides o) →
      (∀ o ∈ dmp, Dumps o ∨ o = .text "Summary") → (∀ x, .isTld x ∉ mid) → (∀ x, .labelError x ∉ mid) →
        (∀ x, .tldError x ∉ mid) →
        (∀ x m, .notIn m x ∈ mid ↔ m = 0 ∧ Input rs x ∧ ∃ s, index x = .error (.notInLGR s)) →
      Opening index rs tlds (pre ++ mid ++ comp ++ dmp) := by
    intro mid comp dmp h1 h2 h3 k1 k2 k3 k4
    have hw := (wrap (pre ++ mid) comp dmp (fun o hO => (List.mem_append.1 hO).elim (hearly o) (h1 o)) h2 h3).2.2
    refine ⟨fun x => ?_, fun x => ?_, fun x => ?_, fun x m => ?_⟩
    · rw [hw _ (.isTld _) (by simp), List.mem_append, ← hopen.1 x]; simp [k1 x]
    · rw [hw _ (.labelError _) (by simp), List.mem_append, ← hopen.2.1 x]; simp [k2 x]
    · rw [hw _ (.tldError _) (by simp), List.mem_append, ← hopen.2.2.1 x]; simp [k3 x]
    · rw [hw _ (.notIn _ _) (by simp), List.mem_append, ← k4 x m]; simp [hopen.2.2.2 m x]
  generalize hts : tldSet order tlds = ts at *
  constructor
  · obtain ⟨d, n, hgen⟩ := generate_returns (dispo := dispo) (tlds := ts) false quiet hl ht hidx' (.inr hok)
    obtain ⟨mid, h1, k1, k2, k3, k4, h2⟩ := main false d n hgen
    simp only [Bool.false_eq_true, if_false] at h2
    have hcomp := complete_reported (groups_of hl ht hgen) (fun k es hes => groups_cps hl ht hgen hes)
      (fun k es hes e he hv => absurd hv (no_variants hr hl ht hgen hes he))
    refine ⟨_, h2, opening mid _ [] h1 (fun o => complete_collides) (by simp) k1 k2 k3 k4, ?_⟩
    have hw := wrap (pre ++ mid) _ [] (fun o hO => (List.mem_append.1 hO).elim (hearly o) (h1 o))
      (fun o (h : o ∈ (completeOutput (firsts (validLabels rs)) ts d).1) => complete_collides h) (by simp)
    exact (hcomp.congr ml mt).around hw.1
  · intro hlists hcons
    obtain ⟨d, n, hgen⟩ := generate_returns (dispo := dispo) (tlds := ts) true quiet hl ht hidx' (.inr hok)
    obtain ⟨mid, h1, k1, k2, k3, k4, h2⟩ := main true d n hgen
    simp only [if_true] at h2
    have hcons' : Consistent index dispo quiet (firsts (validLabels rs)) ts := by
      intro q k hq hi v hv hvm
      rw [ml, mt] at hq hvm
      exact hcons q k hq hi v hv hvm
    have hcomp := complete_reported (groups_of hl ht hgen) (fun k es hes => groups_cps hl ht hgen hes)
      (fun k es hes e he hv => variants_apart hcons' hl ht hgen hes he hv)
    have hdmp : ∀ o ∈ Line.text "Summary" :: (fullDump lower d).1, Dumps o ∨ o = .text "Summary" := by
      intro o hO
      rcases List.mem_cons.1 hO with h | h
      · exact .inr h
      · exact .inl (dump_dumps h)
    have hw := wrap (pre ++ mid) _ _ (fun o hO => (List.mem_append.1 hO).elim (hearly o) (h1 o))
      (fun o (h : o ∈ (completeOutput (firsts (validLabels rs)) ts d).1) => complete_collides h) hdmp
    have hop := opening mid _ _ h1 (fun o (h : o ∈ (completeOutput (firsts (validLabels rs)) ts d).1) =>
      complete_collides h) hdmp k1 k2 k3 k4
    have hrep := (hcomp.congr ml mt).around hw.1
    have eL : (fun x => x ∈ firsts (validLabels rs)) = Input rs := funext fun x => propext (ml x)
    have eT : (fun x => x ∈ ts) = Tld tlds := funext fun x => propext (mt x)
    have hfd := fullDump_spec lower hlists hl ht hgen
    rw [eL, eT] at hfd
    refine ⟨fun hm => ?_, fun hm => ?_⟩
    · obtain ⟨f1, f2⟩ := hfd.1 hm
      rw [f1] at h2
      refine ⟨_, h2, hop, hrep, f2.around (fun o hO => ?_)⟩
      rw [hw.2.1 o hO, List.mem_cons]
      constructor
      · rintro (rfl | h)
        · cases hO
        · exact h
      · exact .inr
    · rw [hfd.2 hm] at h2
      exact ⟨_, h2, hop, hrep⟩

/-! ## Labels without index are not looked at -/

theorem forEach_congr {σ α : Type} {f g : σ → α → σ × Except Err Unit} : ∀ {l : List α} {s : σ},
    (∀ a ∈ l, ∀ s, f s a = g s a) → forEach f s l = forEach g s l
  | [], _, _ => rfl
  | a :: l, s, h => by
    rw [forEach, forEach, h a (by simp)]
    rcases g s a with ⟨s', e | u⟩
    · rfl
    · exact forEach_congr (fun b hb => h b (by simp [hb]))

/-- Dispositions are only computed for labels and TLDs with an index. -/
theorem generate_congr {index : Seq → Except Err Seq} {dispo dispo' : Dispo} {labels tlds : List Seq} (keep quiet : Bool)
    (h : ∀ b l w k, (l ∈ labels ∨ l ∈ tlds) → index l = .ok k → dispo b l w = dispo' b l w) :
    generateIndexes index dispo labels tlds keep quiet [] = generateIndexes index dispo' labels tlds keep quiet [] := by
  unfold generateIndexes
  rcases hc : collect index labels [] tlds with ⟨st, e | u⟩
  · rfl
  have hf := collect_files hc
  have hval : ∀ g ∈ st.idx, g.2 = (share (inputs index labels tlds []) g.1).map C32.Input.entry := by
    rintro ⟨k, es⟩ hg
    have h1 := dget_of_mem hf.nodup hg
    rw [hf.get] at h1
    split at h1
    · simp at h1
    · simp only [Option.some.injEq] at h1; exact h1.symm
  have : forEach (groupStep dispo quiet keep) st.idx st.idx = forEach (groupStep dispo' quiet keep) st.idx st.idx := by
    apply forEach_congr
    intro g hg d
    unfold groupStep
    have : ∀ d, forEach (primaryStep dispo quiet keep g.1 (g.2.map Entry.cp)) d g.2 =
        forEach (primaryStep dispo' quiet keep g.1 (g.2.map Entry.cp)) d g.2 := by
      intro d
      apply forEach_congr
      intro p hp d
      rw [hval g hg] at hp
      obtain ⟨i, hi, rfl⟩ := List.mem_map.1 hp
      have := mem_share.1 hi
      unfold primaryStep
      rw [h _ i.entry.cp _ g.1 (this.1.imp And.left And.left) this.2.1]
    rw [this]
  simp only [this]

open Classical in
/-- The dispositions, where they are looked at. -/
noncomputable def tame (P : Seq → Prop) (dispo : Dispo) : Dispo :=
  fun b l w => if P l then dispo b l w else ([(l, dash)], .ok ())

theorem tame_pos {P : Seq → Prop} {dispo : Dispo} {l : Seq} (h : P l) (b : Bool) (w : Option (List Seq)) :
    tame P dispo b l w = dispo b l w := if_pos h

theorem tame_neg {P : Seq → Prop} {dispo : Dispo} {l : Seq} (h : ¬ P l) (b : Bool) (w : Option (List Seq)) :
    tame P dispo b l w = ([(l, dash)], .ok ()) := if_neg h

/-- The labels and TLDs read which have an index. -/
def Indexed (index : Seq → Except Err Seq) (rs : List Read) (tlds : Option (List Read)) (l : Seq) : Prop :=
  (Input rs l ∨ Tld tlds l) ∧ ∃ k, index l = .ok k

/-- **C113**, partial. `collision`: the labels and TLDs which cannot be read, the labels without index and those which
are TLDs are reported; without a dump, exactly the pairs of a label and another label or a TLD with the same index are
reported as collisions. With a dump, this holds when no variant of a label is a label or TLD with another index or
none, and the dump lists exactly what is computed for each label, provided that the labels of the same index have the
same variants; otherwise `InvalidSymmetry` is raised. Missing: the collisions reported do not depend on the dump
(`dump_wrong`), and pairs are reported once (`C33.dump_lists_twice`). -/
theorem collision_partial (order : List Seq → List Seq) (ho : Order order) (lower : String → String)
    (index : Seq → Except Err Seq) (dispo : Dispo) (rs : List Read) (tlds : Option (List Read)) (quiet : Bool)
    (hidx : Indexes index (fun l => Input rs l ∨ Tld tlds l))
    (hok : ∀ b l w, Indexed index rs tlds l → (dispo b l w).2 = .ok ())
    (hr : Restricted dispo (Indexed index rs tlds)) :
    (∃ out, collision order lower index dispo rs tlds false quiet = (out, .ok ()) ∧
      Opening index rs tlds out ∧ Reported index (Input rs) (Tld tlds) false out) ∧
    (Lists dispo quiet (Indexed index rs tlds) →
      (∀ q k, (Input rs q ∨ Tld tlds q) → index q = .ok k → ∀ v ∈ computed dispo quiet q,
        (Input rs v.1 ∨ Tld tlds v.1) → index v.1 = .ok k) →
      (Mutual index dispo quiet (Input rs) (Tld tlds) →
        ∃ out, collision order lower index dispo rs tlds true quiet = (out, .ok ()) ∧
          Opening index rs tlds out ∧ Reported index (Input rs) (Tld tlds) true out ∧
          Dumped index dispo lower quiet (Input rs) (Tld tlds) out) ∧
      (¬ Mutual index dispo quiet (Input rs) (Tld tlds) →
        ∃ out, collision order lower index dispo rs tlds true quiet = (out, .error .invalidSymmetry) ∧
          Opening index rs tlds out ∧ Reported index (Input rs) (Tld tlds) true out)) := by
  have hcol : ∀ b, collision order lower index dispo rs tlds b quiet =
      collision order lower index (tame (Indexed index rs tlds) dispo) rs tlds b quiet := by
    intro b
    unfold collision
    have := generate_congr (index := index) (dispo := dispo) (dispo' := tame (Indexed index rs tlds) dispo)
      (labels := firsts (validLabels rs)) (tlds := tldSet order tlds) b quiet (by
        intro c l w k hl hk
        rw [tame_pos]
        refine ⟨hl.imp ?_ ?_, k, hk⟩
        · rw [mem_firsts, mem_validLabels]; exact id
        · unfold Tld
          cases tlds with
          | none => simp [tldSet]
          | some t => simp only [tldSet, ho.mem, mem_validLabels, Option.some.injEq]; exact fun h => ⟨t, rfl, h⟩)
    simp only [this]
  have hcomp : ∀ l, Indexed index rs tlds l →
      computed (tame (Indexed index rs tlds) dispo) quiet l = computed dispo quiet l := by
    intro l hl
    unfold computed
    rw [tame_pos hl]
  have hmut : Mutual index (tame (Indexed index rs tlds) dispo) quiet (Input rs) (Tld tlds) ↔
      Mutual index dispo quiet (Input rs) (Tld tlds) := by
    unfold Mutual
    constructor
    · rintro h p q hp hq ⟨k, h1, h2⟩
      have := h p q hp hq ⟨k, h1, h2⟩
      rw [hcomp p ⟨.inl hp, k, h1⟩, hcomp q ⟨hq, k, h2⟩] at this
      exact this
    · rintro h p q hp hq ⟨k, h1, h2⟩
      rw [hcomp p ⟨.inl hp, k, h1⟩, hcomp q ⟨hq, k, h2⟩]
      exact h p q hp hq ⟨k, h1, h2⟩
  obtain ⟨g1, g2⟩ := collision_global order ho lower index (tame (Indexed index rs tlds) dispo) (by
      intro b l w
      by_cases h : Indexed index rs tlds l
      · rw [tame_pos h]; exact hok b l w h
      · rw [tame_neg h]) (by
      intro b l w _ hl v hv
      by_cases h : Indexed index rs tlds l
      · rw [tame_pos h] at hv; exact hr b l w h hl v hv
      · rw [tame_neg h] at hv
        simp only [List.mem_singleton] at hv
        rw [hv]; exact hl) rs tlds quiet hidx
  simp only [hcol]
  refine ⟨g1, fun hlist hcons => ?_⟩
  obtain ⟨g3, g4⟩ := g2 ⟨fun l _ => by
      by_cases h : Indexed index rs tlds l
      · rw [hcomp l h]; exact hlist.once l h
      · unfold computed; rw [tame_neg h]; simp, fun l _ => by
      by_cases h : Indexed index rs tlds l
      · rw [hcomp l h]; exact hlist.own l h
      · unfold computed; rw [tame_neg h]; simp⟩ (fun q k hq hk v hv => by
      rw [hcomp q ⟨hq, k, hk⟩] at hv
      exact hcons q k hq hk v hv)
  rw [hmut] at g3 g4
  refine ⟨fun hm => ?_, g4⟩
  obtain ⟨out, o1, o2, o3, o4⟩ := g3 hm
  refine ⟨out, o1, o2, o3, ⟨o4.dump, fun p c x => ?_, fun p x s => ?_, fun p s n => ?_⟩⟩
  · rw [o4.dumped]
    refine and_congr_right (fun h => ?_)
    rw [hcomp p ⟨.inl h.1, h.2⟩]
  · rw [o4.disps]
    refine and_congr_right (fun h => ?_)
    rw [hcomp p ⟨.inl h.1, h.2⟩]
  · rw [o4.counts]
    refine and_congr_right (fun h => ?_)
    rw [hcomp p ⟨.inl h.1, h.2⟩]

end Lgr.Props.C113

import Verif.Props.MergeWitness
import Verif.Props.CompareLabels

/-!
# C137: labels of the merge of a set of LGRs
-/

namespace Lgr.Props.C137
open Lgr LGR Repertoire C50 C26 C28 Compare MergeSet C45 C98 C132

/-- The name that the merge gives to rule `r`, with which code point `k` is conditioned: after the scripts of
the LGRs that give it a context. -/
def name (sel : Attrs → Option String) (l : List Input) (k : Seq) (r : String) : String :=
  (contexts sel (ordered l) k).foldl (fun w p => p.1 ++ "-" ++ w) r

/-- The rules of code point `k` in LGR `i` have names. -/
def Named (sel : Attrs → Option String) (i : Input) (k : Seq) : Prop :=
  ∀ c, i.lgr.rep.lookup k = some c → sel c.attrs ≠ some ""

/-- LGR `i` conditions code point `k` if any LGR of the set does; `sel` selects `when` or `not-when`. -/
def Leads (sel : Attrs → Option String) (l : List Input) (i : Input) (k : Seq) : Prop :=
  Named sel i k ∧ ∀ c, i.lgr.rep.lookup k = some c →
    (sel c.attrs = none → ∀ j ∈ l, ∀ d, j.lgr.rep.lookup k = some d → given (sel d.attrs) = none)

/-- No LGR of the set gives code point `k` a `when` if LGR `i` gives it a `not-when`. -/
def Unopposed (l : List Input) (i : Input) (k : Seq) : Prop :=
  ∀ c, i.lgr.rep.lookup k = some c → ∀ r, c.attrs.notWhenR = some r →
    ∀ j ∈ l, ∀ d, j.lgr.rep.lookup k = some d → given d.attrs.whenR = none

/-- The rules of code point `k` of LGR `i` say for the label in `env'` what their namesakes of the merge say in `env`. -/
def Means (env env' : Env) (l : List Input) (i : Input) (label k : Seq) : Prop :=
  ∀ c, i.lgr.rep.lookup k = some c → ∀ r o,
    (c.attrs.whenR = some r →
      env.ruleMatches (name Attrs.whenR l k r) label k o = env'.ruleMatches r label k o) ∧
    (c.attrs.notWhenR = some r →
      env.ruleMatches (name Attrs.notWhenR l k r) label k o = env'.ruleMatches r label k o)

theorem mem_contexts {sel : Attrs → Option String} {l : List Input} {i : Input} (hi : i ∈ l) {k : Seq}
    {c : CharObj} (hc : i.lgr.rep.lookup k = some c) {r : String} (hr : sel c.attrs = some r) (hne : r ≠ "") :
    (i.script, r) ∈ contexts sel l k := by
  unfold contexts
  refine List.mem_filterMap.2 ⟨i, hi, ?_⟩
  have hg : given (some r) = some r := by
    rcases given_eq (some r) with ⟨-, h | h⟩ | ⟨s, -, h1, h2⟩
    · cases h
    · exact absurd (Option.some.inj h) hne
    · rw [h2]; exact h1.symm
  rw [hc, Option.bind_some, hr, hg]; rfl

theorem no_contexts {sel : Attrs → Option String} {l : List Input} {k : Seq}
    (h : ∀ j ∈ l, ∀ d, j.lgr.rep.lookup k = some d → given (sel d.attrs) = none) : contexts sel l k = [] := by
  unfold contexts
  rw [List.filterMap_eq_nil_iff]
  intro j hj
  cases hc : j.lgr.rep.lookup k with
  | none => rfl
  | some d => rw [Option.bind_some, h j hj d hc]; rfl

/-- The context in the merge of a code point which an LGR conditions. -/
theorem named {sel : Attrs → Option String} {l : List Input} {i : Input} (hi : i ∈ l) {k : Seq} {c : CharObj}
    (hc : i.lgr.rep.lookup k = some c) (hl : Named sel i k) {w : Option String}
    (hw : Combined (contexts sel (ordered l) k) w) {r : String} (hr : sel c.attrs = some r) :
    w = some (name sel l k r) := by
  have hp : (ordered l).Perm l := sortAsc_perm _ _
  have hm := mem_contexts (l := ordered l) (hp.mem_iff.2 hi) hc hr (by rintro rfl; exact hl c hc hr)
  obtain ⟨r', h3, h4⟩ := hw.2 (List.ne_nil_of_mem hm)
  have : r = r' := h3 _ hm
  subst this
  exact h4

/-- The context in the merge, from that in the LGR that conditions the code point. -/
theorem led {sel : Attrs → Option String} {l : List Input} {i : Input} (hi : i ∈ l) {k : Seq} {c : CharObj}
    (hc : i.lgr.rep.lookup k = some c) (hl : Leads sel l i k) {w : Option String}
    (hw : Combined (contexts sel (ordered l) k) w) : w = (sel c.attrs).map (name sel l k) := by
  have hp : (ordered l).Perm l := sortAsc_perm _ _
  cases hs : sel c.attrs with
  | none => exact hw.1 (no_contexts fun j hj => hl.2 c hc hs j (hp.mem_iff.1 hj))
  | some r => exact named hi hc hl.1 hw hs

section
variable (ord : SetOrder) (valid : String → Bool) (l : List Input) (hg : ∀ i ∈ l, Good i) (ha : Apart l)
  (m : LGR) (h : mergeSet ord valid l = .ok m) (i : Input) (hi : i ∈ l)

include hg ha h hi in
/-- A code point is admitted in the merge where it was in the LGR. -/
theorem merged_ctx {env env' : Env} {label k : Seq} {c e : CharObj} (hc : i.lgr.rep.lookup k = some c)
    (he : m.rep.lookup k = some e) (hw : Leads Attrs.whenR l i k) (hn : Leads Attrs.notWhenR l i k)
    (hm : Means env env' l i label k) (o : Nat) : CharCtx env label o e ↔ CharCtx env' label o c := by
  obtain ⟨h1, h2⟩ := merge_contexts ord valid l hg ha m h k e he
  have e1 := led hi hc hw h1
  have e2 := led hi hc hn h2
  have c1 := lookup_cp hc
  have c2 := lookup_cp he
  unfold CharCtx CtxHolds
  rw [e1, e2, c1, c2]
  cases k1 : c.attrs.whenR with
  | some r =>
    simp only [Option.map_some, Option.some.injEq, forall_eq', reduceCtorEq, false_implies, and_true]
    rw [(hm c hc r o).1 k1]
  | none =>
    cases k2 : c.attrs.notWhenR with
    | none => simp
    | some r =>
      simp only [Option.map_none, Option.map_some, Option.some.injEq, forall_eq', reduceCtorEq, false_implies,
        true_implies, implies_true, true_and]
      rw [(hm c hc r o).2 k2]

include hg ha h hi in
/-- A code point is admitted in the merge at most where it was in the LGR. -/
theorem merged_stricter {env env' : Env} {label k : Seq} {c e : CharObj} (hc : i.lgr.rep.lookup k = some c)
    (he : m.rep.lookup k = some e) (hw : Named Attrs.whenR i k) (hn : Named Attrs.notWhenR i k) (hu : Unopposed l i k)
    (hm : Means env env' l i label k) (o : Nat) (hx : CharCtx env label o e) : CharCtx env' label o c := by
  obtain ⟨h1, h2⟩ := merge_contexts ord valid l hg ha m h k e he
  have c1 := lookup_cp hc
  have c2 := lookup_cp he
  unfold CharCtx CtxHolds at *
  rw [c2] at hx
  rw [c1]
  refine ⟨fun r hr => ?_, fun _ r hr => ?_⟩
  · rw [← (hm c hc r o).1 hr]
    exact hx.1 _ (named hi hc hw h1 hr)
  · rw [← (hm c hc r o).2 hr]
    have hp : (ordered l).Perm l := sortAsc_perm _ _
    exact hx.2 (h1.1 (no_contexts fun j hj => hu c hc r hr j (hp.mem_iff.1 hj))) _ (named hi hc hn h2 hr)

include hg h in
theorem merge_wf : WF m.rep := by
  obtain ⟨g, -, -, h3⟩ := mergeSet_ok hg h
  exact h3.wf

include hg h in
/-- **C137** A label accepted by the merge is made of code points of the LGRs of the set. -/
theorem merge_made (env : Env) (label : Seq) (hacc : Accepts env m label) :
    Made (fun k => ∃ i ∈ l, In i.lgr k) label := by
  obtain ⟨cs, hs⟩ := accepts_seg (merge_wf ord valid l hg m h) hacc
  obtain ⟨h1, h2⟩ := seg_made hs
  exact ⟨_, h1, fun k hk => (merge_code_points ord valid l hg m h k).1 (h2 k hk)⟩

theorem seg_infix {env : Env} {r : Repertoire} {label : Seq} {cs : List CharObj}
    (hs : Segmentation env r label cs) {c : CharObj} (hc : c ∈ cs) : c.cp <:+: label := by
  obtain ⟨p, q, rfl⟩ := List.append_of_mem hc
  rw [← hs.concat, List.flatMap_append, List.flatMap_cons]
  exact ⟨p.flatMap CharObj.cp, q.flatMap CharObj.cp, by simp⟩

include hg ha h hi in
/-- **C137** A label accepted by an LGR of the set is accepted by the merge if none of the entries of the LGRs
begins another one, the LGR conditions every code point of the label that some LGR conditions, rules
say in the merge what they said in the LGR and none of them raises. Missing for the full property: the other
labels, for which it is false (`other_context_wrong`, `overlap_wrong`). -/
theorem merge_complete_partial (env env' : Env) (label : Seq) (hp : Free (fun k => ∃ i ∈ l, In i.lgr k))
    (hd : ∀ k w, Uses m k w → ∀ a o, ∃ b, env.ruleMatches w label a o = .ok b)
    (hl : ∀ k, k <:+: label → Leads Attrs.whenR l i k ∧ Leads Attrs.notWhenR l i k ∧ Means env env' l i label k)
    (hacc : Accepts env' i.lgr label) : Accepts env m label := by
  have hm := merge_code_points ord valid l hg m h
  obtain ⟨cs, hs⟩ := accepts_seg (hg i hi).wf hacc
  obtain ⟨ds, hds⟩ := seg_transfer (env' := env) (r' := m.rep) hs (fun c hc => by
    have hc0 := getChar_ok.1 (hs.stored c hc)
    obtain ⟨e, he⟩ := (hm c.cp).2 ⟨i, hi, c, hc0⟩
    obtain ⟨h1, h2, h3⟩ := hl c.cp (seg_infix hs hc)
    exact ⟨e, he, fun o ho => (merged_ctx ord valid l hg ha m h i hi hc0 he h1 h2 h3 o).2 ho⟩)
  exact seg_accepts (merge_wf ord valid l hg m h) hd (prefixFree hp fun k hk => (hm k).1 hk) hds

include hg ha h hi in
/-- **C137** A label which the merge accepts and whose code points are all code points of one LGR of the set
is accepted by that LGR, if none of the entries of the LGR begins another one, no other LGR conditions in the
opposite way a code point of the label, and rules say in the merge what they said in the LGR and do not raise. Missing
for the full property: entries that begin others, and opposite conditions, for which it is false
(`opposite_contexts_wrong`). -/
theorem merge_sound_partial (env env' : Env) (label : Seq) (hp : Free (In i.lgr))
    (hd : ∀ k w, Uses i.lgr k w → ∀ a o, ∃ b, env'.ruleMatches w label a o = .ok b)
    (hl : ∀ k, k <:+: label → Named Attrs.whenR i k ∧ Named Attrs.notWhenR i k ∧ Unopposed l i k ∧
      Means env env' l i label k)
    (hin : ∀ k, k <:+: label → In m k → In i.lgr k)
    (hacc : Accepts env m label) : Accepts env' i.lgr label := by
  obtain ⟨cs, hs⟩ := accepts_seg (merge_wf ord valid l hg m h) hacc
  obtain ⟨ds, hds⟩ := seg_transfer (env' := env') (r' := i.lgr.rep) hs (fun e he => by
    have he0 := getChar_ok.1 (hs.stored e he)
    obtain ⟨c, hc⟩ := hin e.cp (seg_infix hs he) ⟨e, he0⟩
    obtain ⟨h1, h2, h3, h4⟩ := hl e.cp (seg_infix hs he)
    exact ⟨c, hc, fun o ho => merged_stricter ord valid l hg ha m h i hi hc he0 h1 h2 h3 h4 o ho⟩)
  exact seg_accepts (hg i hi).wf hd (prefixFree hp fun _ hk => hk) hds

include hg ha h hi in
/-- **C137** Where one LGR of the set conditions a code point with `when` and another one with `not-when`, the merge
has both conditions, of which only the first one counts. -/
theorem opposite_contexts (j : Input) (hj : j ∈ l) (k : Seq) (c d : CharObj) (hc : i.lgr.rep.lookup k = some c)
    (hd : j.lgr.rep.lookup k = some d) (r s : String) (hr : c.attrs.whenR = some r) (hs : d.attrs.notWhenR = some s)
    (hr0 : r ≠ "") (hs0 : s ≠ "") : ∃ e, m.rep.lookup k = some e ∧
      e.attrs.whenR = some (name Attrs.whenR l k r) ∧ e.attrs.notWhenR = some (name Attrs.notWhenR l k s) ∧
      ∀ env label o, CharCtx env label o e ↔ env.ruleMatches (name Attrs.whenR l k r) label k o = .ok true := by
  obtain ⟨e, he⟩ := (merge_code_points ord valid l hg m h k).2 ⟨i, hi, c, hc⟩
  obtain ⟨h1, h2⟩ := merge_contexts ord valid l hg ha m h k e he
  have e1 := named (sel := Attrs.whenR) hi hc (fun c' hc' => by rw [hc] at hc'; cases hc'; rw [hr]; simpa using hr0) h1 hr
  have e2 := named (sel := Attrs.notWhenR) hj hd (fun c' hc' => by rw [hd] at hc'; cases hc'; rw [hs]; simpa using hs0) h2 hs
  refine ⟨e, he, e1, e2, fun env label o => ?_⟩
  unfold CharCtx CtxHolds
  rw [e1, lookup_cp he]
  simp
end

/-! ## What goes wrong -/

/-- Rule `r` of LGR `A` never holds; other rules do. -/
def envA : Env := ⟨fun w _ _ _ => .ok (w != "r" && w != "A-r")⟩

/-- `1` under rule `r`. -/
def whenA : Input := mk "A" [add 1 { whenR := some "r" }] ["r"]
/-- `1`. -/
def bareB : Input := mk "B" [add 1]
theorem good_whenA : Good whenA := good_mk _ _ _ rfl (by decide +kernel) (by decide +kernel)
theorem good_bareB : Good bareB := good_mk _ _ _ rfl (by decide +kernel) (by decide +kernel)

/-- **C137** is violated: `B` has code point 1 without a condition, `A` under rule `r`, which is not met. The merge
rejects label 1, which `B` accepts. -/
theorem other_context_wrong : ∃ (l : List Input) (i : Input) (m : LGR), (∀ i ∈ l, Good i) ∧
    (l.map Input.script).Nodup ∧ i ∈ l ∧ mergeSet ord0 (fun _ => true) l = .ok m ∧
    Accepts envA i.lgr [1] ∧ ¬ Accepts envA m [1] := by
  refine ⟨[whenA, bareB], bareB, got [whenA, bareB], ?_, by decide +kernel, by simp, by decide +kernel,
    ⟨(envA.prelim bareB.lgr.rep [1]).toOption.get!, by decide +kernel, by decide +kernel⟩,
    rejects_of (p := ⟨false, [], [(1, some ["A-r"])], []⟩) (by decide +kernel) rfl⟩
  intro i hi
  simp only [List.mem_cons, List.not_mem_nil, or_false] at hi
  rcases hi with rfl | rfl
  · exact good_whenA
  · exact good_bareB

/-- `1` not under rule `s`. -/
def notB : Input := mk "B" [add 1 { notWhenR := some "s" }] ["s"]
/-- All rules hold. -/
def envT : Env := ⟨fun _ _ _ _ => .ok true⟩

theorem good_notB : Good notB := good_mk _ _ _ rfl (by decide +kernel) (by decide +kernel)

/-- **C137** is violated: `A` has code point 1 when `r`, `B` has it not when `s`. All rules hold, so that `B` rejects
label 1. The merge, which has both conditions and heeds the first one, accepts it. -/
theorem opposite_contexts_wrong : ∃ (l : List Input) (i : Input) (m : LGR), (∀ i ∈ l, Good i) ∧
    (l.map Input.script).Nodup ∧ i ∈ l ∧ mergeSet ord0 (fun _ => true) l = .ok m ∧
    Accepts envT m [1] ∧ In i.lgr [1] ∧ ¬ Accepts envT i.lgr [1] := by
  refine ⟨[whenA, notB], notB, got [whenA, notB], ?_, by decide +kernel, by simp, by decide +kernel,
    ⟨(envT.prelim (got [whenA, notB]).rep [1]).toOption.get!, by decide +kernel, by decide +kernel⟩,
    (in_iff good_notB.wf [1]).2 (by decide +kernel),
    rejects_of (p := (envT.prelim notB.lgr.rep [1]).toOption.get!) (by decide +kernel) (by decide +kernel)⟩
  intro i hi
  simp only [List.mem_cons, List.not_mem_nil, or_false] at hi
  rcases hi with rfl | rfl
  · exact good_whenA
  · exact good_notB

/-- `1` and `2 3`; `1 2`. -/
def partsA : Input := mk "A" [add 1, .addCp (.seq [2, 3]) {}]
def partsB : Input := mk "B" [.addCp (.seq [1, 2]) {}]
theorem good_partsA : Good partsA := good_mk _ _ _ rfl (by decide +kernel) (by decide +kernel)
theorem good_partsB : Good partsB := good_mk _ _ _ rfl (by decide +kernel) (by decide +kernel)

/-- **C137** is violated: `A` has 1 and the sequence 2 3, `B` has the sequence 1 2. The merge rejects label 1 2 3,
which `A` accepts, as it reads 1 2 at first. -/
theorem overlap_wrong : ∃ (l : List Input) (i : Input) (m : LGR), (∀ i ∈ l, Good i) ∧
    (l.map Input.script).Nodup ∧ i ∈ l ∧ mergeSet ord0 (fun _ => true) l = .ok m ∧
    Accepts envT i.lgr [1, 2, 3] ∧ ¬ Accepts envT m [1, 2, 3] := by
  refine ⟨[partsA, partsB], partsA, got [partsA, partsB], ?_, by decide +kernel, by simp, by decide +kernel,
    ⟨(envT.prelim partsA.lgr.rep [1, 2, 3]).toOption.get!, by decide +kernel, by decide +kernel⟩,
    rejects_of (p := (envT.prelim (got [partsA, partsB]).rep [1, 2, 3]).toOption.get!) (by decide +kernel)
      (by decide +kernel)⟩
  intro i hi
  simp only [List.mem_cons, List.not_mem_nil, or_false] at hi
  rcases hi with rfl | rfl
  · exact good_partsA
  · exact good_partsB

/-- Rule `r` holds in the first LGR, not in the second one. -/
def envL : Env := ⟨fun w _ _ _ => .ok (w != "und-Grek-r")⟩

/-- A label that mixes the LGRs is accepted: code point 97 is in the first one only, 99 in the second one only. -/
theorem mixed_accepted : ∃ (l : List Input) (m : LGR) (label : Seq), (∀ i ∈ l, Good i) ∧
    (l.map Input.script).Nodup ∧ mergeSet ord0 (fun _ => true) l = .ok m ∧
    Accepts envL m label ∧ ∀ i ∈ l, ¬ Accepts envL i.lgr label := by
  refine ⟨[latin, greek], got [latin, greek], [97, 99], ?_, by decide +kernel, by decide +kernel,
    ⟨(envL.prelim (got [latin, greek]).rep [97, 99]).toOption.get!, by decide +kernel, by decide +kernel⟩, ?_⟩
  all_goals
    intro i hi
    simp only [List.mem_cons, List.not_mem_nil, or_false] at hi
    rcases hi with rfl | rfl
  · exact good_latin
  · exact good_greek
  · exact rejects_of (p := (envL.prelim latin.lgr.rep [97, 99]).toOption.get!) (by decide +kernel) (by decide +kernel)
  · exact rejects_of (p := (envL.prelim greek.lgr.rep [97, 99]).toOption.get!) (by decide +kernel) (by decide +kernel)

/-! ## A set that meets the hypotheses -/

/-- Both LGRs `sameA` and `sameB` have code point 1 when `r`; `sameB` has 2 not when `s`. -/
theorem scripts_same : ∀ i ∈ [sameB, sameA], Good i := by
  intro i hi
  simp only [List.mem_cons, List.not_mem_nil, or_false] at hi
  rcases hi with rfl | rfl
  · exact good_sameB
  · exact good_sameA

/-- `r` holds for the label, as do its namesakes in the merge; no other rule does. -/
def envS : Env := ⟨fun w _ _ _ => .ok (w == "r" || w == "B-A-r")⟩

theorem in_same (k : Seq) : (∃ i ∈ [sameB, sameA], In i.lgr k) ↔ k = [1] ∨ k = [2] := by
  simp only [List.mem_cons, List.not_mem_nil, or_false, exists_eq_or_imp, exists_eq_left,
    in_iff good_sameB.wf, in_iff good_sameA.wf,
    show sameB.lgr.rep.allChars.map CharObj.cp = [[1], [2]] by decide +kernel,
    show sameA.lgr.rep.allChars.map CharObj.cp = [[1]] by decide +kernel]
  tauto

theorem lookup_sameB {k : Seq} {c : CharObj} (hc : sameB.lgr.rep.lookup k = some c) :
    (k = [1] ∧ c.attrs.whenR = some "r" ∧ c.attrs.notWhenR = none) ∨
    (k = [2] ∧ c.attrs.whenR = none ∧ c.attrs.notWhenR = some "s") := by
  have h : sameB.lgr.rep.allChars.all (fun c => decide ((c.cp = [1] ∧ c.attrs.whenR = some "r" ∧
      c.attrs.notWhenR = none) ∨ (c.cp = [2] ∧ c.attrs.whenR = none ∧ c.attrs.notWhenR = some "s"))) = true := by
    decide +kernel
  rw [List.all_eq_true] at h
  have := h c ((mem_allChars good_sameB.wf c).2 (by rw [lookup_cp hc]; exact hc))
  rw [lookup_cp hc] at this
  simpa using this

theorem lookup_sameA {k : Seq} {c : CharObj} (hc : sameA.lgr.rep.lookup k = some c) :
    k = [1] ∧ c.attrs.whenR = some "r" ∧ c.attrs.notWhenR = none := by
  have h : sameA.lgr.rep.allChars.all (fun c => decide (c.cp = [1] ∧ c.attrs.whenR = some "r" ∧
      c.attrs.notWhenR = none)) = true := by decide +kernel
  rw [List.all_eq_true] at h
  have := h c ((mem_allChars good_sameA.wf c).2 (by rw [lookup_cp hc]; exact hc))
  rw [lookup_cp hc] at this
  simpa using this

/-- The hypotheses of the theorems hold, for every label. -/
example : Free (fun k => ∃ i ∈ [sameB, sameA], In i.lgr k) ∧ ∀ label k,
    Leads Attrs.whenR [sameB, sameA] sameB k ∧ Leads Attrs.notWhenR [sameB, sameA] sameB k ∧
    Unopposed [sameB, sameA] sameB k ∧ Means envS envS [sameB, sameA] sameB label k := by
  refine ⟨?_, fun label k => ⟨⟨?_, ?_⟩, ⟨?_, ?_⟩, ?_, ?_⟩⟩
  · intro k l hk hl hp
    rw [in_same] at hk hl
    rcases hk with rfl | rfl <;> rcases hl with rfl | rfl <;> simp_all
  · intro c hc
    rcases lookup_sameB hc with ⟨-, h1, h2⟩ | ⟨-, h1, h2⟩ <;> rw [h1] <;> simp
  · intro c hc hn j hj d hd
    simp only [List.mem_cons, List.not_mem_nil, or_false] at hj
    rcases lookup_sameB hc with ⟨rfl, h1, h2⟩ | ⟨rfl, h1, h2⟩
    · rw [h1] at hn; cases hn
    · rcases hj with rfl | rfl
      · rcases lookup_sameB hd with ⟨h, -⟩ | ⟨-, h3, -⟩
        · simp at h
        · rw [h3]; rfl
      · simpa using (lookup_sameA hd).1
  · intro c hc
    rcases lookup_sameB hc with ⟨-, h1, h2⟩ | ⟨-, h1, h2⟩ <;> rw [h2] <;> simp
  · intro c hc hn j hj d hd
    simp only [List.mem_cons, List.not_mem_nil, or_false] at hj
    rcases lookup_sameB hc with ⟨rfl, h1, h2⟩ | ⟨rfl, h1, h2⟩
    · rcases hj with rfl | rfl
      · rcases lookup_sameB hd with ⟨-, -, h3⟩ | ⟨h, -⟩
        · rw [h3]; rfl
        · simp at h
      · rw [(lookup_sameA hd).2.2]; rfl
    · rw [h2] at hn; cases hn
  · intro c hc r hr j hj d hd
    simp only [List.mem_cons, List.not_mem_nil, or_false] at hj
    rcases lookup_sameB hc with ⟨rfl, h1, h2⟩ | ⟨rfl, h1, h2⟩
    · rw [h2] at hr; cases hr
    · rcases hj with rfl | rfl
      · rcases lookup_sameB hd with ⟨h, -⟩ | ⟨-, h3, -⟩
        · simp at h
        · rw [h3]; rfl
      · simpa using (lookup_sameA hd).1
  · intro c hc r o
    have n1 : name Attrs.whenR [sameB, sameA] [1] "r" = "B-A-r" := by decide +kernel
    have n2 : name Attrs.notWhenR [sameB, sameA] [2] "s" = "B-s" := by decide +kernel
    rcases lookup_sameB hc with ⟨rfl, h1, h2⟩ | ⟨rfl, h1, h2⟩
    · rw [h1, h2]
      refine ⟨?_, by simp⟩
      rintro ⟨⟩
      rw [n1]; rfl
    · rw [h1, h2]
      refine ⟨by simp, ?_⟩
      rintro ⟨⟩
      rw [n2]; rfl

/-- Both accept a label. -/
example : Accepts envS sameB.lgr [1, 2] ∧ Accepts envS (got [sameB, sameA]) [1, 2] :=
  ⟨⟨(envS.prelim sameB.lgr.rep [1, 2]).toOption.get!, by decide +kernel, by decide +kernel⟩,
    ⟨(envS.prelim (got [sameB, sameA]).rep [1, 2]).toOption.get!, by decide +kernel, by decide +kernel⟩⟩

end Lgr.Props.C137

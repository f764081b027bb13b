import Verif.Props.MergeContext
import Verif.Props.Harmonize

/-!
# C45, C94, C96, C97: examples and sets of LGRs on which the merge goes wrong
-/

namespace Lgr.Props.C45
open Lgr LGR Repertoire C50 C26 C28 Compare MergeSet C94 Relation

/-- An LGR made by calls of the API. -/
def mk (lang : String) (ops : List LGR.Op) (rules : List String := []) : Input :=
  { languages := [lang], lgr := LGR.run {} (ops.map (fun o => (C27.ctx, o))), rules }

/-- Sets iterated in order of insertion. -/
def ord0 : SetOrder := ⟨id, id, id, id, fun _ => .refl _, fun _ => .refl _, fun _ => .refl _,
  fun _ => .refl _⟩

theorem good_mk (lang : String) (ops : List LGR.Op) (rules : List String)
    (hr : (mk lang ops rules).lgr.rep.ranges = [])
    (ha : ∀ c ∈ (mk lang ops rules).lgr.rep.allChars, c.range = none)
    (hn : ((mk lang ops rules).lgr.refs.refs.map Prod.fst).Nodup) : Good (mk lang ops rules) :=
  ⟨(run_wf _).1, C30.intact_of_all (run_wf _).1 hr ha, hn⟩

/-- A code point. -/
def add (a : Nat) (o : Opts := {}) : LGR.Op := .addCp (.int a) o
/-- Two code points variants of each other. -/
def vars (a b : Nat) (o : Opts := {}) : List LGR.Op :=
  [.addVariant (.int a) (.int b) (some "blocked") o, .addVariant (.int b) (.int a) (some "blocked") o]

/-- The merge of a list, when there is one. -/
def got (l : List Input) : LGR :=
  match mergeSet ord0 (fun _ => true) l with
  | .ok m => m
  | .error _ => {}

/-- A test of the variants of a code point. -/
def onVars (g : LGR) (k : Seq) (p : Variant → Bool) : Bool :=
  (g.rep.lookup k).all (fun c => c.getVariants.all p)

theorem of_onVars {g : LGR} {k : Seq} {p : Variant → Bool} (h : onVars g k p = true) {u : Variant}
    (hu : Maps g k u) : p u = true := by
  obtain ⟨c, hc, hu⟩ := hu
  unfold onVars at h
  rw [hc] at h
  simp only [Option.all_some, List.all_eq_true] at h
  exact h u hu

theorem maps_of {g : LGR} {k : Seq} {u : Variant}
    (h : (g.rep.lookup k).any (fun c => decide (u ∈ c.getVariants)) = true) : Maps g k u := by
  cases hc : g.rep.lookup k with
  | none => rw [hc] at h; simp at h
  | some c => rw [hc] at h; exact ⟨c, hc, by simpa using h⟩

/-- `a` and `b` variants of each other, and of `c`. -/
def setA : Input := mk "und-A" ([add 1, add 2, add 3] ++ vars 1 2 ++ vars 2 3 ++ vars 1 3)
/-- `a` and `b` variants of each other, and of `d`. -/
def setB : Input := mk "und-B" ([add 1, add 2, add 4] ++ vars 1 2 ++ vars 2 4 ++ vars 1 4)

theorem good_setA : Good setA := good_mk _ _ _ rfl (by decide +kernel) (by decide +kernel)
theorem good_setB : Good setB := good_mk _ _ _ rfl (by decide +kernel) (by decide +kernel)

/-- **C45**, violated: two LGRs with the variant sets {1, 2, 3} and {1, 2, 4} cannot be merged. -/
theorem merge_raises_wrong : ∃ l : List Input, (∀ i ∈ l, Good i) ∧ (l.map Input.script).Nodup ∧
    mergeSet ord0 (fun _ => true) l = .error (.variantAlreadyExists [4] [3]) := by
  refine ⟨[setA, setB], ?_, by decide +kernel, by decide +kernel⟩
  intro i hi
  simp only [List.mem_cons, List.not_mem_nil, or_false] at hi
  rcases hi with rfl | rfl
  · exact good_setA
  · exact good_setB

/-- `a` and `b` variants of each other when `r`. -/
def ctxA : Input := mk "und-A" ([add 1, add 2] ++ vars 1 2 { whenR := some "r" })
/-- The same with a rule named as the merge names rules. -/
def ctxB : Input := mk "und-B" ([add 1, add 2] ++ vars 1 2 { whenR := some "und-A-r" })

theorem good_ctxA : Good ctxA := good_mk _ _ _ rfl (by decide +kernel) (by decide +kernel)
theorem good_ctxB : Good ctxB := good_mk _ _ _ rfl (by decide +kernel) (by decide +kernel)

/-- **C45**, violated: a variant whose context rule is called `und-A-r` is taken for a variant with the rule
`r` of the LGR `und-A`. -/
theorem merge_context_wrong : ∃ (l : List Input) (i : Input) (m : LGR) (v : Variant),
    (∀ i ∈ l, Good i) ∧ i ∈ l ∧ Maps i.lgr [1] v ∧ mergeSet ord0 (fun _ => true) l = .ok m ∧
      ∀ u, Maps m [1] u → u.whenR ≠ preRule i.script v.whenR := by
  refine ⟨[ctxA, ctxB], ctxB, got [ctxA, ctxB], ⟨[2], some "blocked", some "und-A-r", none, none, []⟩, ?_,
    by simp, maps_of (by decide +kernel), by decide +kernel, ?_⟩
  · intro i hi
    simp only [List.mem_cons, List.not_mem_nil, or_false] at hi
    rcases hi with rfl | rfl
    · exact good_ctxA
    · exact good_ctxB
  · intro u hu
    have h : onVars (got [ctxA, ctxB]) [1] (fun u => decide (u.whenR ≠ preRule ctxB.script (some "und-A-r"))) =
        true := by decide +kernel
    simpa using of_onVars h hu

/-- Two code points variants of each other. -/
def pairA : Input := mk "und-A" ([add 1, add 2] ++ vars 1 2)
/-- Each of them with another variant. -/
def pairB : Input := mk "und-B" ([add 1, add 2, add 3, add 4] ++ vars 1 3 ++ vars 2 4)

theorem good_pairA : Good pairA := good_mk _ _ _ rfl (by decide +kernel) (by decide +kernel)
theorem good_pairB : Good pairB := good_mk _ _ _ rfl (by decide +kernel) (by decide +kernel)

/-- **C97**, violated for transitivity: one LGR has the variants 1 and 2, the other 1 and 3, 2 and 4; in the
merge 3 is a variant of 1 and 1 of 4, but 3 is no variant of 4. -/
theorem merge_transitive_wrong : ∃ (l : List Input) (m : LGR), (∀ i ∈ l, Good i) ∧ (l.map Input.script).Nodup ∧
    mergeSet ord0 (fun _ => true) l = .ok m ∧ Pair m [3] [1] ∧ Pair m [1] [4] ∧ ¬ Pair m [3] [4] := by
  refine ⟨[pairA, pairB], got [pairA, pairB], ?_, by decide +kernel, by decide +kernel,
    ⟨⟨[1], some "blocked", none, none, none, []⟩, maps_of (by decide +kernel), rfl⟩,
    ⟨⟨[4], some "blocked", none, none, some transComment, []⟩, maps_of (by decide +kernel), rfl⟩, ?_⟩
  · intro i hi
    simp only [List.mem_cons, List.not_mem_nil, or_false] at hi
    rcases hi with rfl | rfl
    · exact good_pairA
    · exact good_pairB
  · rintro ⟨u, hu, he⟩
    have h : onVars (got [pairA, pairB]) [3] (fun u => decide (u.cp ≠ [4])) = true := by decide +kernel
    have := of_onVars h hu
    simp [he] at this

/-- The reference `0` and a code point. -/
def refA : Input := mk "und-A" [.addReference "A" none (some "0"), add 1]
/-- Another reference `0`, cited by the code point. -/
def refB : Input := mk "und-B" [.addReference "B" none (some "0"), add 1 { ref := ["0"] }]

theorem good_refA : Good refA := good_mk _ _ _ rfl (by decide +kernel) (by decide +kernel)
theorem good_refB : Good refB := good_mk _ _ _ rfl (by decide +kernel) (by decide +kernel)

/-- **C94**, violated for a code point of two LGRs: it cites a reference `B` in one LGR, and `A` in the
merge, which none of the LGRs makes it cite. -/
theorem merge_references_wrong : ∃ (l : List Input) (m : LGR), (∀ i ∈ l, Good i) ∧
    (l.map Input.script).Nodup ∧ mergeSet ord0 (fun _ => true) l = .ok m ∧
    (∀ i ∈ l, ∀ c, i.lgr.rep.lookup [1] = some c → ∀ r ∈ c.attrs.refs, ∀ x, C11.view i.lgr.refs r = some x →
      x.value = "B") ∧
    ∃ e, m.rep.lookup [1] = some e ∧ e.attrs.refs = ["0"] ∧ (C11.view m.refs "0").map Ref.value = some "A" := by
  refine ⟨[refA, refB], got [refA, refB], ?_, by decide +kernel, by decide +kernel, ?_,
    ((got [refA, refB]).rep.lookup [1]).getD default, by decide +kernel, by decide +kernel, by decide +kernel⟩
  · intro i hi
    simp only [List.mem_cons, List.not_mem_nil, or_false] at hi
    rcases hi with rfl | rfl
    · exact good_refA
    · exact good_refB
  · intro i hi c hc r hr x hx
    simp only [List.mem_cons, List.not_mem_nil, or_false] at hi
    rcases hi with rfl | rfl
    · have h : (refA.lgr.rep.lookup [1]).all (fun c => decide (c.attrs.refs = [])) = true := by decide +kernel
      rw [hc] at h
      simp only [Option.all_some, decide_eq_true_eq] at h
      rw [h] at hr; simp at hr
    · have h : (refB.lgr.rep.lookup [1]).all (fun c => c.attrs.refs.all (fun r =>
          (C11.view refB.lgr.refs r).all (fun x => x.value == "B"))) = true := by decide +kernel
      rw [hc] at h
      simp only [Option.all_some, List.all_eq_true] at h
      have := h r hr
      rw [hx] at this
      simpa using this

/-- A code point with the rule of the MSR for context. -/
def msr : Input := mk "und-A" [add 1 { whenR := some "leading-combining-mark" }] ["leading-combining-mark"]

theorem good_msr : Good msr := good_mk _ _ _ rfl (by decide +kernel) (by decide +kernel)

/-- **C96**, violated: the rule of the MSR becomes `Common-leading-combining-mark`, a context with its name
gets the prefix of the script. -/
theorem merge_contexts_wrong : ∃ (l : List Input) (s : SState) (m : LGR) (e : CharObj) (w : String),
    (∀ i ∈ l, Good i) ∧ (∀ i ∈ l, ∀ k c, i.lgr.rep.lookup k = some c → ∀ r, c.attrs.whenR = some r → r ∈ i.rules) ∧
    mergeAll ord0 (fun _ => true) l = (s, .ok ()) ∧ mergeSet ord0 (fun _ => true) l = .ok m ∧
    m.rep.lookup [1] = some e ∧ e.attrs.whenR = some w ∧ w ∉ s.m.rules := by
  refine ⟨[msr], (mergeAll ord0 (fun _ => true) [msr]).1, got [msr],
    ((got [msr]).rep.lookup [1]).getD default, "und-A-leading-combining-mark", ?_, ?_, Prod.ext rfl (by decide +kernel),
    by decide +kernel, by decide +kernel, by decide +kernel, by decide +kernel⟩
  · intro i hi
    rw [List.mem_singleton] at hi
    subst hi; exact good_msr
  · intro i hi k c hc r hr
    rw [List.mem_singleton] at hi
    subst hi
    have h : msr.lgr.rep.allChars.all (fun c => c.attrs.whenR.all (fun r => decide (r ∈ msr.rules))) = true := by
      decide +kernel
    rw [List.all_eq_true] at h
    have := h c ((mem_allChars good_msr.wf c).2 (by rw [lookup_cp hc]; exact hc))
    rw [hr] at this
    simpa using this

/-! ### Cases that the theorems cover -/

/-- An LGR with a tag, a reference, a rule and a variant set. -/
def latin : Input := mk "und-Latn" ([.addReference "X" none (some "0"),
  add 97 { tag := ["t"], ref := ["0"], whenR := some "r" }, add 98] ++ vars 97 98 { ref := ["0"] }) ["r"]
/-- Another with the same identifier for another reference and a code point in common. -/
def greek : Input := mk "und-Grek" ([.addReference "Y" none (some "0"), add 98,
  add 99 { ref := ["0"], notWhenR := some "r" }] ++ vars 98 99) ["r"]

theorem good_latin : Good latin := good_mk _ _ _ rfl (by decide +kernel) (by decide +kernel)
theorem good_greek : Good greek := good_mk _ _ _ rfl (by decide +kernel) (by decide +kernel)

/-- The merge of two LGRs returns: code points, tags, references, contexts and variants. -/
example : mergeSet ord0 (fun _ => true) [latin, greek] = .ok (got [latin, greek]) ∧
    (got [latin, greek]).rep.iter.map (fun c => (c.cp, c.attrs.tags, c.attrs.refs)) =
      [([97], ["und-Latn-t"], ["1"]), ([98], [], []), ([99], [], ["0"])] ∧
    (got [latin, greek]).rep.iter.map (fun c => (c.attrs.whenR, c.attrs.notWhenR, c.getVariants.map Variant.cp)) =
      [(some "und-Latn-r", none, [[98], [99]]), (none, none, [[97], [99]]),
        (none, some "und-Grek-r", [[97], [98]])] :=
  ⟨by decide +kernel, by decide +kernel, by decide +kernel⟩

theorem clean_of {i : Input} (hwf : WF i.lgr.rep) (hdb : i.db = none)
    (h1 : i.lgr.refs.refs.all (fun p => decide (' ' ∉ p.1.toList ∧ p.1 ≠ "")) = true)
    (h2 : i.lgr.rep.allChars.all (fun c => c.attrs.tags.all (fun x =>
      decide (' ' ∉ (if ':' ∈ x.toList then x else pre i.script x).toList ∧
        (if ':' ∈ x.toList then x else pre i.script x) ≠ "")) &&
      c.attrs.refs.all (fun r => (C11.view i.lgr.refs r).isSome) &&
      c.getVariants.all (fun v => v.refs.all (fun r => (C11.view i.lgr.refs r).isSome))) = true) : Clean i := by
  rw [List.all_eq_true] at h1 h2
  have h3 : ∀ k c, i.lgr.rep.lookup k = some c → _ := fun k c hc =>
    h2 c ((mem_allChars hwf c).2 (by rw [lookup_cp hc]; exact hc))
  simp only [Bool.and_eq_true, List.all_eq_true, decide_eq_true_eq] at h3
  refine ⟨fun p hp => by simpa [Word] using h1 p hp, ?_, fun k c hc => (h3 k c hc).1.2, ?_⟩
  · rintro k c t hc (⟨x, hx, rfl⟩ | ⟨a, -, hn, -⟩)
    · exact (h3 k c hc).1.1 x hx
    · rw [hdb] at hn; simp at hn
  · rintro k v ⟨c, hc, hv⟩
    exact (h3 k c hc).2 v hv

/-- They meet the hypotheses on references and tags. -/
example : Clean latin ∧ Clean greek ∧ ([latin, greek].map Input.script).Nodup ∧ Pair latin.lgr [97] [98] ∧
    Pair greek.lgr [98] [99] :=
  ⟨clean_of good_latin.wf rfl (by decide +kernel) (by decide +kernel),
    clean_of good_greek.wf rfl (by decide +kernel) (by decide +kernel), by decide +kernel,
    ⟨⟨[98], some "blocked", none, none, none, ["0"]⟩, maps_of (by decide +kernel), rfl⟩,
    ⟨⟨[99], some "blocked", none, none, none, []⟩, maps_of (by decide +kernel), rfl⟩⟩

theorem defined_of {i : Input} (hwf : WF i.lgr.rep)
    (h : i.lgr.rep.allChars.all (fun c => (c.attrs.whenR.toList ++ c.attrs.notWhenR.toList ++
      c.getVariants.flatMap (fun v => v.whenR.toList ++ v.notWhenR.toList)).all
        (fun w => decide (w ∈ i.rules ∧ w ≠ "leading-combining-mark"))) = true) : C96.Defined i := by
  rw [List.all_eq_true] at h
  have h3 : ∀ k c, i.lgr.rep.lookup k = some c → _ := fun k c hc =>
    h c ((mem_allChars hwf c).2 (by rw [lookup_cp hc]; exact hc))
  simp only [List.all_eq_true, decide_eq_true_eq, List.mem_append, Option.mem_toList, List.mem_flatMap] at h3
  refine ⟨fun k e he => ⟨fun w hw _ => h3 k e he w (.inl (.inl hw)), fun w hw _ => h3 k e he w (.inl (.inr hw))⟩, ?_⟩
  rintro k v ⟨c, hc, hv⟩
  exact ⟨fun w hw _ => h3 k c hc w (.inr ⟨v, hv, .inl hw⟩), fun w hw _ => h3 k c hc w (.inr ⟨v, hv, .inr hw⟩)⟩

/-- Their contexts are rules of theirs, and the names that the merge could make do not occur. -/
example : C96.Defined latin ∧ C96.Defined greek :=
  ⟨defined_of good_latin.wf (by decide +kernel), defined_of good_greek.wf (by decide +kernel)⟩

example : Distinct [latin, greek] := by
  have h : ∀ i ∈ [latin, greek], i.lgr.rep.allChars.all (fun c => c.getVariants.all (fun v =>
      decide (v.whenR = none ∧ v.notWhenR = none))) = true := by
    intro i hi
    simp only [List.mem_cons, List.not_mem_nil, or_false] at hi
    rcases hi with rfl | rfl <;> decide +kernel
  rintro i hi k v ⟨c, hc, hv⟩ j - r
  have hwf : WF i.lgr.rep := by
    simp only [List.mem_cons, List.not_mem_nil, or_false] at hi
    rcases hi with rfl | rfl
    · exact good_latin.wf
    · exact good_greek.wf
  have := h i hi
  rw [List.all_eq_true] at this
  have := this c ((mem_allChars hwf c).2 (by rw [lookup_cp hc]; exact hc))
  simp only [List.all_eq_true, decide_eq_true_eq] at this
  rw [(this v hv).1, (this v hv).2]
  simp

/-- A code point with the context `r` in two LGRs. -/
def sameA : Input := mk "A" [add 1 { whenR := some "r" }] ["r"]
def sameB : Input := mk "B" [add 1 { whenR := some "r" }, add 2 { notWhenR := some "s" }] ["r", "s"]

theorem good_sameA : Good sameA := good_mk _ _ _ rfl (by decide +kernel) (by decide +kernel)
theorem good_sameB : Good sameB := good_mk _ _ _ rfl (by decide +kernel) (by decide +kernel)

example : mergeSet ord0 (fun _ => true) [sameB, sameA] = .ok (got [sameB, sameA]) ∧
    (got [sameB, sameA]).rep.iter.map (fun c => (c.cp, c.attrs.whenR, c.attrs.notWhenR)) =
      [([1], some "B-A-r", none), ([2], none, some "B-s")] ∧
    C98.contexts Attrs.whenR (ordered [sameB, sameA]) [1] = [("A", "r"), ("B", "r")] ∧
    (mergeAll ord0 (fun _ => true) [sameB, sameA]).1.m.rules = ["A-r", "B-A-r", "B-r", "B-s"] :=
  ⟨by decide +kernel, by decide +kernel, by decide +kernel, by decide +kernel⟩

/-- They meet the hypotheses on names. -/
example : C98.Apart [sameB, sameA] := by
  have key : ∀ (a : Char) (x y : String), x.toList.length < 2 → x ≠ String.ofList [a] ++ "-" ++ y := by
    rintro a x y hl rfl
    simp at hl
  have hl : ∀ i ∈ [sameB, sameA], ∃ a, i.script = String.ofList [a] := by
    intro i hi
    simp only [List.mem_cons, List.not_mem_nil, or_false] at hi
    rcases hi with rfl | rfl
    · exact ⟨'B', rfl⟩
    · exact ⟨'A', rfl⟩
  refine ⟨by decide +kernel, ?_, ?_⟩
  · intro i hi j hj x
    obtain ⟨a, ha⟩ := hl i hi
    obtain ⟨b, hb⟩ := hl j hj
    rw [ha]
    exact key a _ x (by rw [hb]; simp)
  · intro i hi j hj k c hc x
    obtain ⟨a, ha⟩ := hl i hi
    have h : ∀ j ∈ [sameB, sameA], WF j.lgr.rep ∧ j.lgr.rep.allChars.all (fun c =>
        (c.attrs.whenR.toList ++ c.attrs.notWhenR.toList).all (fun w => decide (w.toList.length < 2))) = true := by
      intro j hj
      simp only [List.mem_cons, List.not_mem_nil, or_false] at hj
      rcases hj with rfl | rfl
      · exact ⟨good_sameB.wf, by decide +kernel⟩
      · exact ⟨good_sameA.wf, by decide +kernel⟩
    obtain ⟨hw, h⟩ := h j hj
    rw [List.all_eq_true] at h
    have := h c ((mem_allChars hw c).2 (by rw [lookup_cp hc]; exact hc))
    simp only [List.all_eq_true, List.mem_append, Option.mem_toList, decide_eq_true_eq] at this
    rw [ha]
    exact ⟨fun he => key a _ x (this _ (.inl he)) rfl, fun he => key a _ x (this _ (.inr he)) rfl⟩

end Lgr.Props.C45

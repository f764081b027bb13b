import Verif.Props.PopulateXml
import Verif.Props.PopulateRules
import Verif.Props.DocXmlWrong

/-!
# C130, C131: the tool which populates variants; populating twice
-/

namespace Lgr.Props.C131
open Lgr LGR Repertoire Xml DocXml C50 C26 C28 C130 Populate

/-- Where a variant has a rule of a kind, a reverse variant has one of the same kind. -/
def Answered (g : LGR) : Prop :=
  ∀ x v, Maps g x v →
    (truthy v.whenR = true → ∃ w, Maps g v.cp w ∧ w.cp = x ∧ truthy w.whenR = true) ∧
    (truthy v.notWhenR = true → ∃ w, Maps g v.cp w ∧ w.cp = x ∧ truthy w.notWhenR = true)

theorem fixRule_still {db : UniDb} {g : LGR} {a : Seq} {b : Variant} {reverse : List Variant} {f : Variant → Option String}
    {other : Option String} {o : Opts} (h : truthy (f b) = true → ∃ w ∈ reverse, truthy (f w) = true) :
    fixRule db g a b reverse (f b) (lastRule f reverse) other o = (g, .ok ()) := by
  unfold fixRule
  split
  · rfl
  split
  · rename_i hr
    simp only [Bool.and_eq_true, Bool.not_eq_true'] at hr
    obtain ⟨w, hw, ht⟩ := h hr.1
    rw [lastRule_mem hw ht] at hr
    cases hr.2
  · rfl

/-- A sweep whose body changes nothing. -/
theorem sweep_still {f : Seq → LGR → Variant → LGR × Except Err Unit} {g : LGR}
    (hf : ∀ a b, Maps g a b → f a g b = (g, .ok ())) :
    forRepertoire (fun g a => forVariants (f a) g a) g = (g, .ok ()) := by
  obtain ⟨g', h, rfl⟩ := sweep_total (Inv := fun k => k = g) (f := f)
    (fun a k b hk hm => by subst hk; exact ⟨k, hf a b hm, rfl, fun _ h => h⟩) rfl
  exact h

/-- A complete LGR is left as it is. -/
theorem populate_still {db : UniDb} {g : LGR} (hwf : WF g.rep) (hp : Passes db g) (hr : Answered g) (m : Nat) :
    populate db (m + 1) g = some (g, .ok ()) := by
  obtain ⟨⟨es, hs⟩, et, ht⟩ := hp
  have hi := (C27.check_transitivity_returns_iff db g hwf).1 ⟨_, ht⟩
  have hsym := (check_symmetry_exact db g hwf true es hs).1 rfl
  have miss : forRepertoire (fun g a => forVariants (missBody db a) g a) g = (g, .ok ()) := by
    refine sweep_still (f := missBody db) (fun a b hm => ?_)
    obtain ⟨c, hc⟩ := (hsym a b hm).1
    unfold missBody
    rw [(getVariants_ok (maps_ne hwf hm)).2 ⟨hi a b hm, c, hc, rfl⟩]
  have sym : addSymmetry db g = (g, .ok ()) := by
    refine sweep_still (f := symBody db) (fun a b hm => ?_)
    obtain ⟨⟨c, hc⟩, w, hw, hwa⟩ := hsym a b hm
    have hmem : ∀ u, Maps g b.cp u → u.cp = a → u ∈ c.getVariants.filter (fun v => decide (a = v.cp)) := by
      rintro u ⟨d, hd, hu⟩ hua
      rw [hc] at hd; cases hd
      exact List.mem_filter.2 ⟨hu, by simp [hua]⟩
    unfold symBody
    rw [(getVariants_ok (maps_ne hwf hm)).2 ⟨hi a b hm, c, hc, rfl⟩]
    dsimp only
    rw [if_neg (List.ne_nil_of_mem (hmem w hw hwa))]
    rw [fixRule_still (f := Variant.whenR) (fun h => by
      obtain ⟨u, h1, h2, h3⟩ := (hr a b hm).1 h
      exact ⟨u, hmem u h1 h2, h3⟩)]
    dsimp only
    exact fixRule_still (f := Variant.notWhenR) (fun h => by
      obtain ⟨u, h1, h2, h3⟩ := (hr a b hm).2 h
      exact ⟨u, hmem u h1 h2, h3⟩)
  obtain ⟨⟨s, e⟩, h3⟩ := (check_symmetry_returns_iff db g hwf false).2 (fun a b hm _ => hi a b hm)
  unfold populate
  rw [miss]
  dsimp only
  have hl : loopTest db g = .ok false := by
    unfold loopTest
    rw [hs]
    dsimp only
    rw [ht]
    rfl
  rw [fixLoop.eq_2, hl]
  dsimp only
  unfold finish
  rw [h3]
  cases s with
  | false => dsimp only; rw [sym]
  | true => rfl

theorem populate_answered {db : UniDb} {n : Nat} {g g' : LGR} (hwf : WF g.rep)
    (h : populate db n g = some (g', .ok ())) : Answered g' := by
  intro x v hv
  obtain ⟨h1, h2⟩ := C53.populate_rules_symmetric db n g g' hwf h x v hv
  constructor
  · intro ht
    obtain ⟨r, hr, hr'⟩ := truthy_iff.1 ht
    obtain ⟨w, r', h3, h4, h5, h6⟩ := h1 r hr hr'
    exact ⟨w, h3, h4, truthy_iff.2 ⟨r', h5, h6⟩⟩
  · intro ht
    obtain ⟨r, hr, hr'⟩ := truthy_iff.1 ht
    obtain ⟨w, r', h3, h4, h5, h6⟩ := h2 r hr hr'
    exact ⟨w, h3, h4, truthy_iff.2 ⟨r', h5, h6⟩⟩

/-- **C131** Populating twice is populating once: if `populate_variants` returns, a second call returns at once
and leaves the LGR exactly as it is. -/
theorem populate_twice (db : UniDb) (n : Nat) (g g' : LGR) (hwf : WF g.rep)
    (h : populate db n g = some (g', .ok ())) (m : Nat) : populate db (m + 1) g' = some (g', .ok ()) := by
  have w := (populate_spec (R := fun _ _ => True) ⟨by simp, by simp⟩ hwf (by simp) h).1
  exact populate_still w (populate_symmetric_transitive db n g g' hwf h) (populate_answered hwf h) m

end Lgr.Props.C131

namespace Lgr.Props.C130
open Lgr LGR Repertoire Xml DocXml C50 C26 C28 C104 C131 Populate PopulateTool

theorem reader_safe (R : Reader) : Safe (reader R).db (reader R).strict (reader R).force := .inr (.inl rfl)

theorem main_printed {R : Reader} {schema : Option Bool} {n : Nat} {d d' : Doc}
    (h : main R schema n d = some (.printed d')) :
    ∃ g l, (parseDoc (reader R) [] d).2 = .ok (some g) ∧ populate R.db n g.lgr = some (l, .ok ()) ∧
      serializeDoc { g with lgr := l } = .ok d' := by
  unfold main parseLgr at h
  split at h
  · cases h
  · cases h
  · rename_i g hg
    split at hg
    · cases hg
    unfold complete at h
    split at h
    · cases h
    · cases h
    · rename_i l hl
      split at h
      · cases h
      · rename_i d1 hd
        cases h
        exact ⟨g, l, hg, hl, hd⟩

/-- **C130** (partial) What `lgr_populate_variants` prints: the document is read, by the same parser and in any state of
the conformance results, into the LGR of the input with its variant sets completed and nothing else changed; this
LGR passes the checks of symmetry and transitivity; and it is written as the same document. Missing: texts for
which the writer or the parser fail (`DocOk`, C104), and documents for which the tool raises, see
`range_member_wrong`. -/
theorem tool_prints_completed_partial (R : Reader) (hx : C99.Sound R.x) {d : Doc} (hd : DocOk (reader R) d)
    {schema : Option Bool} {n : Nat} {d' : Doc} (h : main R schema n d = some (.printed d')) :
    ∃ g, (parseDoc (reader R) [] d).2 = .ok (some g) ∧
      ∀ cs, ∃ cs' g', parseDoc (reader R) cs d' = (cs', .ok (some g')) ∧ Completed g g' ∧ Passes R.db g'.lgr ∧
        serializeDoc g' = .ok d' := by
  obtain ⟨g, l, h1, h2, h3⟩ := main_printed h
  refine ⟨g, h1, fun cs => ?_⟩
  obtain ⟨d2, cs2, g', w1, w2, -, w4, w5, w6⟩ :=
    populated_reread (R := reader R) hx (reader_safe R) hd (source (R := reader R) hx (reader_safe R) hd h1) h2 cs
  rw [h3] at w1
  cases w1
  exact ⟨cs2, g', w2, w4, w5, w6⟩

/-- **C130** (partial) When the tool prints: whenever the document is read, unless the schema rejects it, if no
variant is a range member, has an empty rule name, two rules, or twice the same reference. -/
theorem tool_prints_partial (R : Reader) (hx : C99.Sound R.x) {d : Doc} (hd : DocOk (reader R) d)
    {schema : Option Bool} (hsc : schema ≠ some false) {g : Loaded} (h : (parseDoc (reader R) [] d).2 = .ok (some g))
    (hr : ∀ x v, Maps g.lgr x v → v.whenR ≠ some "" ∧ v.notWhenR ≠ some "" ∧ (v.whenR = none ∨ v.notWhenR = none))
    (hn : ∀ x v, Maps g.lgr x v → v.refs.Nodup)
    (hm : ∀ x v c, Maps g.lgr x v → g.lgr.rep.lookup v.cp = some c → c.range = none) :
    ∃ n d', ∀ m, n ≤ m → main R schema m d = some (.printed d') := by
  have hs := source (R := reader R) hx (reader_safe R) hd h
  have hG := hs.lgr
  have hall : ∀ x v, Maps g.lgr x v → IdnaOk R.db g.lgr x ∧ IdnaOk R.db g.lgr v.cp ∧
      ∀ i ∈ v.refs, (dget g.lgr.refs.refs i).isSome = true := by
    rintro x v ⟨c, hc, hv⟩
    have hR := hG.inv.all x c hc
    have h1 := hR.allowed
    rw [lookup_cp hc] at h1
    obtain ⟨h2, h3, -⟩ := hR.vars v hv
    refine ⟨?_, ?_, by rw [hG.refs]; exact h3⟩
    · unfold IdnaOk; rw [hG.raises]; exact h1
    · unfold IdnaOk; rw [hG.raises]; exact h2
  have ht : C28.Tidy R.db g.lgr := ⟨hr, fun x v hv => ⟨(hall x v hv).2.2, hn x v hv⟩,
    fun x v hv => ⟨(hall x v hv).1, (hall x v hv).2.1⟩, hm⟩
  obtain ⟨n, l, hp, -⟩ := populate_returns R.db g.lgr hG.inv.wf ht
  obtain ⟨d', cs2, g', w1, -⟩ := populated_reread (R := reader R) hx (reader_safe R) hd hs (hp n le_rfl) []
  refine ⟨n, d', fun m hm => ?_⟩
  unfold main parseLgr
  rw [if_neg hsc, h]
  dsimp only
  unfold complete
  rw [hp m hm]
  dsimp only
  rw [w1]

/-- **C130** A document which the schema rejects, or which cannot be read, is not printed. -/
theorem tool_rejects (R : Reader) (n : Nat) (d : Doc) :
    main R (some false) n d = some .logged ∧
    ∀ schema, schema ≠ some false → (∀ g, (parseDoc (reader R) [] d).2 ≠ .ok (some g)) →
      main R schema n d = some .logged ∨ ∃ e, main R schema n d = some (.raised e) := by
  refine ⟨rfl, fun schema hs hg => ?_⟩
  unfold main parseLgr
  rw [if_neg hs]
  rcases h : (parseDoc (reader R) [] d).2 with e | _ | g
  · exact .inr ⟨e, rfl⟩
  · exact .inl rfl
  · exact absurd h (hg g)

/-- **C130** The tool ends, whatever the document. -/
theorem tool_ends (R : Reader) (hx : C99.Sound R.x) {d : Doc} (hd : DocOk (reader R) d) (schema : Option Bool) :
    ∃ n out, ∀ m, n ≤ m → main R schema m d = some out := by
  unfold main
  cases h : parseLgr R schema d with
  | error e => exact ⟨0, _, fun _ _ => rfl⟩
  | ok o =>
    cases o with
    | none => exact ⟨0, _, fun _ _ => rfl⟩
    | some g =>
      dsimp only
      have hs : Source (reader R) d g := by
        unfold parseLgr at h
        split at h
        · cases h
        · exact source (R := reader R) hx (reader_safe R) hd h
      obtain ⟨n, out, ho⟩ := populate_terminates R.db g.lgr hs.lgr.inv.wf
      unfold complete
      obtain ⟨l, o⟩ := out
      cases o with
      | error e => exact ⟨n, .raised e, fun m hm => by rw [ho m hm]⟩
      | ok u =>
        cases hd : serializeDoc { g with lgr := l } with
        | error e => exact ⟨n, .raised e, fun m hm => by rw [ho m hm]; dsimp only; rw [hd]⟩
        | ok d => exact ⟨n, .printed d, fun m hm => by rw [ho m hm]; dsimp only; rw [hd]⟩

/-- **C130** (partial) Given the document it has printed, the tool prints the same document. Missing: as in `tool_prints_completed_partial`. -/
theorem tool_twice_partial (R : Reader) (hx : C99.Sound R.x) {d : Doc} (hd : DocOk (reader R) d)
    {schema schema' : Option Bool} (hsc : schema' ≠ some false) {n : Nat} {d' : Doc} (h : main R schema n d = some (.printed d')) (m : Nat) :
    main R schema' (m + 1) d' = some (.printed d') := by
  obtain ⟨g, l, h1, h2, h3⟩ := main_printed h
  have hs := source (R := reader R) hx (reader_safe R) hd h1
  obtain ⟨d2, cs2, g', w1, w2, w3, -, w5, w6⟩ := populated_reread (R := reader R) hx (reader_safe R) hd hs h2 []
  rw [h3] at w1
  cases w1
  have hw : WF g'.lgr.rep := by
    obtain ⟨t, hpr, -⟩ := hs.rules
    have gr := (populate_spec (R := fun _ _ => True) ⟨by simp, by simp⟩ hs.lgr.inv.wf (by simp) h2).2.1
    have hrn : newRules g.lgr = newRules l := by unfold newRules tagClasses; rw [gr.tagCls]
    rw [hrn] at hpr
    obtain ⟨d3, cs3, g3, v1, v2, -, -, -, v5, -⟩ := fit_reread (reader R) hx (reader_safe R) hs.md (fit_populate hs.lgr h2)
      hd.classes hpr (ids := g.ids) []
    have e : serializeDoc { g with lgr := l } = .ok d3 := v1
    rw [h3] at e
    cases e
    rw [w2] at v2
    cases v2
    exact v5
  have ha : Answered g'.lgr := by
    have h0 := populate_answered hs.lgr.inv.wf h2
    intro x v hv
    have hmv : ∀ x v, Maps g'.lgr x v ↔ Maps l x v := alike_maps w3
    simp only [hmv]
    exact h0 x v ((hmv x v).1 hv)
  unfold main parseLgr
  rw [if_neg hsc, w2]
  dsimp only
  unfold complete
  have hp : populate R.db (m + 1) g'.lgr = some (g'.lgr, .ok ()) := populate_still hw w5 ha m
  rw [hp]
  dsimp only
  have : ({ g' with lgr := g'.lgr } : Loaded) = g' := rfl
  rw [this, w6]

/-! ## Examples -/

/-- Two characters, one of them with variants out of the repertoire, and a rule of a kind for one direction only. -/
def docV : Doc :=
  { metaE := some [{ tag := "references", refs := [([("id", "0")], .plain "RFC 7940")] }]
    data :=
      [{ tag := "char", attrs := [("cp", "0061"), ("ref", "0")],
         vars := [[("cp", "0062"), ("type", "allocatable"), ("when", "r")], [("cp", "63 64")]] },
       { tag := "char", attrs := [("cp", "0062")], vars := [[("cp", "0061")]] }]
    rules := some
      [.mk "class" [("name", "a")] (some "61-63") [],
       .mk "rule" [("name", "r")] none [.mk "start" [] none []]] }

theorem docV_ok : DocOk (reader reader0) docV := by
  refine ⟨?_, by decide +kernel, fun h => by cases h⟩
  rintro ms ⟨⟩ e he
  apply melemOk_sound
  revert e
  decide +kernel

/-- What the tool prints has the third entry, the variants of all pairs of the set, and the rule on the way back. -/
example : C99.Sound reader0.x ∧ DocOk (reader reader0) docV ∧ ∃ d', main reader0 none 5 docV = some (.printed d') ∧
    d'.data.map (fun e => (dget e.attrs "cp", e.vars.map (fun v => (dget v "cp", dget v "when")))) =
      [(some "0061", [(some "0062", some "r"), (some "0063 0064", none)]),
       (some "0062", [(some "0061", some "r"), (some "0063 0064", none)]),
       (some "0063 0064", [(some "0061", none), (some "0062", none)])] := by
  refine ⟨C99.x0_sound, docV_ok, ?_⟩
  have h : (match main reader0 none 5 docV with
      | some (.printed d') => decide (d'.data.map (fun e => (dget e.attrs "cp", e.vars.map (fun v => (dget v "cp", dget v "when")))) =
      [(some "0061", [(some "0062", some "r"), (some "0063 0064", none)]),
       (some "0062", [(some "0061", some "r"), (some "0063 0064", none)]),
       (some "0063 0064", [(some "0061", none), (some "0062", none)])])
      | _ => false) = true := by decide +kernel
  rcases hp : main reader0 none 5 docV with _ | o
  · rw [hp] at h; cases h
  rw [hp] at h
  rcases o with d' | _ | e
  · exact ⟨d', rfl, of_decide_eq_true h⟩
  · cases h
  · cases h

/-- A range with a member that is the variant of another character. -/
def docR : Doc :=
  { metaE := some []
    data :=
      [{ tag := "range", attrs := [("first-cp", "61"), ("last-cp", "63")] },
       { tag := "char", attrs := [("cp", "0065")], vars := [[("cp", "62")]] }]
    rules := none }

/-- More fuel changes no outcome. -/
theorem fixLoop_more {db : UniDb} {o : LGR × Except Err Unit} : ∀ (n : Nat) {g : LGR}, fixLoop db n g = some o →
    fixLoop db (n + 1) g = some o
  | 0, g, h => by rw [fixLoop.eq_1] at h; cases h
  | n + 1, g, h => by
    rw [fixLoop.eq_2] at h ⊢
    split at h
    · exact h
    · exact h
    · split at h
      · exact h
      · split at h
        · exact h
        · exact fixLoop_more n h

theorem main_more {R : Reader} {schema : Option Bool} {n : Nat} {d : Doc} {o : Outcome} (h : main R schema n d = some o) :
    main R schema (n + 1) d = some o := by
  unfold main at h ⊢
  cases hp : parseLgr R schema d with
  | error e => rw [hp] at h; exact h
  | ok g =>
    cases g with
    | none => rw [hp] at h; exact h
    | some g =>
      rw [hp] at h
      dsimp only at h ⊢
      have key : ∀ o, populate R.db n g.lgr = some o → populate R.db (n + 1) g.lgr = some o := by
        intro o ho
        unfold populate at ho ⊢
        split at ho
        · exact ho
        · cases hf : fixLoop R.db n _ with
          | none => rw [hf] at ho; cases ho
          | some p => rw [hf] at ho; rw [fixLoop_more n hf]; exact ho
      unfold complete at h ⊢
      cases hq : populate R.db n g.lgr with
      | none => rw [hq] at h; cases h
      | some p => rw [hq] at h; rw [key p hq]; exact h

/-- **C130** (violation) The tool raises for some documents it can read: a member of a range cannot be given the
variant that symmetry demands. -/
theorem range_member_wrong : DocOk (reader reader0) docR ∧
    (∃ g, (parseDoc (reader reader0) [] docR).2 = .ok (some g)) ∧
    ∀ n, main reader0 none (n + 1) docR = some (.raised (.format "RANGE_NO_CHILD")) := by
  refine ⟨⟨(by rintro ms ⟨⟩ e he; cases he), by decide +kernel, fun h => by cases h⟩, ?_, fun n => ?_⟩
  · have h : (match (parseDoc (reader reader0) [] docR).2 with
      | .ok (some _) => true
      | _ => false) = true := by decide +kernel
    rcases hp : (parseDoc (reader reader0) [] docR).2 with e | o
    · rw [hp] at h; cases h
    rw [hp] at h
    cases o with
    | none => cases h
    | some g => exact ⟨g, rfl⟩
  · induction n with
    | zero =>
      have h : (match main reader0 none 1 docR with
        | some (.raised e) => decide (e = .format "RANGE_NO_CHILD")
        | _ => false) = true := by decide +kernel
      rcases hp : main reader0 none 1 docR with _ | o
      · rw [hp] at h; cases h
      rw [hp] at h
      rcases o with d' | _ | e
      · cases h
      · cases h
      · rw [of_decide_eq_true h]
    | succ n ih => exact main_more ih

end Lgr.Props.C130

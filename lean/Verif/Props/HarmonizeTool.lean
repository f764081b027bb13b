import Verif.Props.HarmonizeXml
import Verif.Props.DocXmlWrong
import Verif.Props.VariantSets

/-!
# C141: the tool which harmonises two LGRs
-/

namespace Lgr.Props.C141
open Lgr LGR Repertoire Xml MetaXml DocXml Compare Populate Harmonize HarmonizeTool C50 C26 C28 C46 C104 C130

/-! ## What is asked -/

/-- The version says so if it said nothing. -/
def said (t : MetaXml.Txt) : MetaXml.Txt :=
  if t.note = none ∨ t.note = some "" then { t with note := some " - Harmonized" } else t

/-- The LGR of `g'` is that of `g` with the code points and variant pairs of `A.harm B` (C46), without ranges, and nothing else
is changed but the comment of the version. -/
structure Harmonised (A B : Graph) (g g' : Loaded) : Prop where
  md : g'.md = { g.md with version := g.md.version.map said, nextId := 0 }
  graph : graph g'.lgr = A.harm B
  kept : ∀ x c, g.lgr.rep.lookup x = some c → ∃ c', g'.lgr.rep.lookup x = some c' ∧ c'.attrs = c.attrs
  fresh : ∀ x c', g.lgr.rep.lookup x = none → g'.lgr.rep.lookup x = some c' →
    c'.attrs = {} ∨ c'.attrs = { comment := some "Out-of-repertoire" }
  ranges : g'.lgr.rep.ranges = [] ∧ ∀ x c', g'.lgr.rep.lookup x = some c' → c'.range = none
  blocked : ∀ x v, Maps g'.lgr x v → v.type = some "blocked" ∨ v.type = some "out-of-repertoire" ∧ v.cp = x ∧
    g.lgr.rep.lookup x = none ∨ ∃ u, Maps g.lgr x u ∧ u.cp = v.cp ∧ u.type = v.type
  variants : NoEmpty g.lgr → ∀ x v, Maps g.lgr x v → Kept g'.lgr x v
  refs : g'.lgr.refs.refs = g.lgr.refs.refs
  tags : ∀ t x, x ∈ tagSet g'.lgr t ↔ x ∈ tagSet g.lgr t
  tagKeys : ∀ t, (dget g'.lgr.tagCls t).isSome = (dget g.lgr.tagCls t).isSome
  types : ∀ t, t ∈ g'.lgr.types ↔ ∃ x v, Maps g'.lgr x v ∧ v.type = t
  classes : ∀ n, (dget g.rules.rs.lk.classes n).isSome = (dget g'.rules.rs.lk.classes n).isSome
  sameClass : ∀ n c, dget g.rules.rs.lk.classes n = some c → ∃ c', dget g'.rules.rs.lk.classes n = some c' ∧ C101.CEq c c'
  rules : g'.rules.rs.lk.rules = g.rules.rs.lk.rules ∧ g'.rules.rs.cache = g.rules.rs.cache
  names : g'.rules.clsNames = g.rules.clsNames ∧ g'.rules.ruleNames = g.rules.ruleNames
  actions : g'.rules.actions = g.rules.actions

/-- What is read of the root zone document, if there is one that the schema does not reject. -/
def Root (R : Reader) (z : Option (Option Bool × Doc)) (rz : Option Loaded) : Prop :=
  match z with
  | none => rz = none
  | some (s, d) => if s = some false then rz = none else (parseDoc (PopulateTool.reader R) [] d).2 = .ok rz

/-- The graph of an LGR harmonised with the root zone. -/
def rooted (g : Loaded) (rz : Option Loaded) : Graph :=
  match rz with
  | none => graph g.lgr
  | some z => (graph g.lgr).harm (graph z.lgr)

/-- The document is read, in any state of the conformance results, into such an LGR, which passes the checks of symmetry and
transitivity and is written as the same document. -/
def Holds (R : Reader) (A B : Graph) (g : Loaded) (d' : Doc) : Prop :=
  ∀ cs, ∃ cs' g', parseDoc (PopulateTool.reader R) cs d' = (cs', .ok (some g')) ∧ Harmonised A B g g' ∧ Passes R.db g'.lgr ∧
    serializeDoc g' = .ok d'

/-! ## Metadata -/

theorem comment_said (t : MetaXml.Txt) : markTxt t = said t := by
  unfold markTxt said harmonizedComment
  obtain ⟨v, n⟩ := t
  cases n with
  | none => simp [truthy]
  | some s =>
    by_cases h : s = ""
    · subst h; simp [truthy]
    · simp [truthy, h]

theorem said_twice (t : MetaXml.Txt) : said (said t) = said t := by
  unfold said
  by_cases h : t.note = none ∨ t.note = some ""
  · rw [if_pos h]; simp
  · rw [if_neg h, if_neg h]

theorem mark_md (m : Meta) : mark m = { m with version := m.version.map said } := by
  unfold mark
  rw [show markTxt = said from funext comment_said]

theorem marked_md (b : Bool) (m : Meta) : marked b m = { m with version := m.version.map said } := by
  unfold marked
  cases b with
  | false => exact mark_md m
  | true =>
    rw [if_pos rfl, mark_md, mark_md]
    cases m.version with
    | none => rfl
    | some t => simp [said_twice]

theorem fits_said {t : MetaXml.Txt} (h : C99.Fits t) : C99.Fits (said t) := by
  unfold said
  split
  · refine ⟨h.1, fun n hn => ?_⟩
    cases hn
    decide +kernel
  · exact h

theorem mgood_marked {x : MetaXml.Ctx} {force : Bool} {m : Meta} (h : MGood x force m) (b : Bool) : MGood x force (marked b m) := by
  rw [marked_md]
  refine ⟨{ h.writable with version := ?_ }, h.ids⟩
  intro v hv
  simp only at hv
  cases hm : m.version with
  | none => rw [hm] at hv; cases hv
  | some t =>
    rw [hm] at hv
    cases hv
    exact fits_said (h.writable.version t hm)

/-! ## One LGR -/

theorem harmonised_reread {R : Reader} (hx : C99.Sound R.x) (hs : Safe R.db R.strict R.force) {d : Doc} (hd : DocOk R d)
    {g : Loaded} (h : Source R d g) {l : LGR} (hw : WF l.rep) (hm : More g.lgr l) (hk : Keeps g.lgr l)
    {A B : Graph} (hg : graph l = A.harm B) (hA : ∀ x y, A.edge x y → A.node x) (hi : Inside (C34.Allowed R.db R.strict) (graph l))
    (b : Bool) :
    ∃ d', serializeDoc { g with md := marked b g.md, lgr := l } = .ok d' ∧
      ∀ cs', ∃ cs2 g', parseDoc R cs' d' = (cs2, .ok (some g')) ∧ Harmonised A B g g' ∧ Passes R.db g'.lgr ∧ serializeDoc g' = .ok d' := by
  obtain ⟨t, hpr, -⟩ := h.rules
  have hrn : newRules g.lgr = newRules l := by unfold newRules tagClasses; rw [hm.tagCls]
  rw [hrn] at hpr
  have hfit : Fit R.db R.strict R.force (managerOf (marked b g.md)) l := by
    rw [marked_md]
    exact fit_harmonised h.lgr hw hm hk hi
  have all := fun cs' => fit_reread R hx hs (mgood_marked h.md b) hfit hd.classes hpr (ids := g.ids) cs'
  obtain ⟨d', -, -, w1, -⟩ := all []
  refine ⟨d', w1, fun cs' => ?_⟩
  obtain ⟨d2, cs2, g', w1', w2, -, w3, w4, w5, w6, -⟩ := all cs'
  have e : (.ok d2 : Except Err Doc) = .ok d' := w1'.symm.trans w1
  cases e
  have hmp : ∀ x v, Maps g'.lgr x v ↔ Maps l x v := alike_maps w3
  have hin : ∀ x, In g'.lgr x ↔ In l x := alike_in w3
  have hpp : ∀ x y, Pair g'.lgr x y ↔ Pair l x y := alike_pair w3
  have hgr : graph g'.lgr = A.harm B := by
    rw [← hg]
    exact Graph.ext' hin (fun x y => by rw [edge_pair, edge_pair]; exact hpp x y)
  refine ⟨cs2, g', w2, ?_, ?_, w6⟩
  · exact {
      md := by rw [w3.md, marked_md]
      graph := hgr
      kept := fun x c hc => by
        obtain ⟨c1, h1, h2⟩ := hk.keep x c hc
        obtain ⟨c2, h4, h5⟩ := w3.entries x c1 h1
        exact ⟨c2, h4, h5.attrs.symm.trans h2⟩
      fresh := fun x c' h0 hc' => by
        obtain ⟨c1, h1⟩ := (hin x).1 ⟨c', hc'⟩
        obtain ⟨c2, h4, h5⟩ := w3.entries x c1 h1
        rw [hc'] at h4; cases h4
        rw [← h5.attrs]
        exact hk.fresh x c1 h0 h1
      ranges := by
        have := w3.ranges
        dsimp only at this
        rw [hm.ranges] at this
        refine ⟨List.perm_nil.1 this, fun x c' hc' => ?_⟩
        obtain ⟨c1, h1⟩ := (hin x).1 ⟨c', hc'⟩
        obtain ⟨c2, h4, h5⟩ := w3.entries x c1 h1
        rw [hc'] at h4; cases h4
        rw [← h5.range]
        exact hm.plain x c1 h1
      blocked := fun x v hv => hk.types x v ((hmp x v).1 hv)
      variants := fun hne x v hv => by
        have := (hk.vars hne).2 x v hv
        unfold Kept at this ⊢
        simp only [hmp]
        exact this
      refs := by
        have := w3.refs
        dsimp only at this
        rwa [hk.refs] at this
      tags := fun t x => by
        have := w3.tags t x
        unfold tagSet at this ⊢
        dsimp only at this
        rwa [hm.tagCls] at this
      tagKeys := fun t => by
        have := w3.tagKeys t
        dsimp only at this
        rwa [hm.tagCls] at this
      types := fun t => by
        rw [w4 t]
        simp only [hmp]
        constructor
        · rintro ⟨k, c, h1, v, h2, h3⟩; exact ⟨k, v, ⟨c, h1, h2⟩, h3⟩
        · rintro ⟨k, v, ⟨c, h1, h2⟩, h3⟩; exact ⟨k, c, h1, v, h2, h3⟩
      classes := w3.classes, sameClass := w3.sameClass, rules := w3.rules, names := w3.names, actions := w3.actions }
  · have cl := harm_closed (A := A) (B := B) hA
    rw [← hgr] at cl
    refine passes_of w5 (fun x y hxy => ?_) (fun x y hxy => ?_) (fun x y z h1 h2 h3 => ?_) (fun a b hab => ?_)
    · exact cl.node y x (cl.symm x y (edge_pair.2 hxy))
    · exact edge_pair.1 (cl.symm x y (edge_pair.2 hxy))
    · exact edge_pair.1 (cl.trans x y z (edge_pair.2 h1) (edge_pair.2 h2) (fun e => h3 e.symm))
    · have hra : g'.lgr.raiseInvalid = R.strict := by
        have := w3.raises
        dsimp only at this
        rw [this, hk.raise, h.lgr.raises]
      unfold IdnaOk
      rw [hra]
      exact (hi.edge a b.cp (edge_pair.2 ⟨b, (hmp a b).1 hab, rfl⟩)).2

/-! ## Names of files -/

theorem take_drop_xml {l : List Char} (h : l.drop (l.length - 4) = ".xml".toList) : l = l.take (l.length - 4) ++ ".xml".toList := by
  rw [← h, List.take_append_drop]

/-- **C141** LGRs of different names are written to different files. -/
theorem file_names (n1 n2 : String) : fileName n1 = fileName n2 ↔ n1 = n2 := by
  refine ⟨fun h => ?_, fun h => by rw [h]⟩
  have key : ∀ (a b : List Char), a ++ "_harmonized.xml".toList ≠ b ++ "_harmonized".toList := by
    intro a b h
    have := congrArg List.getLast? h
    rw [List.getLast?_append, List.getLast?_append] at this
    rw [show "_harmonized.xml".toList.getLast? = some 'l' by decide +kernel, show "_harmonized".toList.getLast? = some 'd' by decide +kernel] at this
    simp at this
  have h' := congrArg String.toList h
  unfold fileName at h'
  split at h' <;> split at h' <;> simp only [String.toList_append, String.toList_ofList] at h'
  · rename_i h1 h2
    have := List.append_cancel_right h'
    apply String.toList_inj.1
    rw [take_drop_xml h1, take_drop_xml h2, this]
  · exact absurd h' (key _ _)
  · exact absurd h'.symm (key _ _)
  · exact String.toList_inj.1 (List.append_cancel_right h')

/-! ## The tool -/

variable {R : Reader} {ord : SetOrder} {d1 d2 : Doc} {s1 s2 : Option Bool} {z : Option (Option Bool × Doc)} {n1 n2 : String}

theorem parse_read {s : Option Bool} {d : Doc} {g : Loaded} (h : PopulateTool.parseLgr R s d = .ok (some g)) :
    s ≠ some false ∧ (parseDoc (PopulateTool.reader R) [] d).2 = .ok (some g) := by
  unfold PopulateTool.parseLgr at h
  split at h
  · cases h
  · rename_i hs; exact ⟨hs, h⟩

theorem root_iff {rz : Option Loaded} : rootLgr R z = .ok rz ↔ Root R z rz := by
  unfold rootLgr Root
  cases z with
  | none => simp only [Except.ok.injEq]; exact eq_comm
  | some p =>
    obtain ⟨s, d⟩ := p
    dsimp only
    unfold PopulateTool.parseLgr
    split
    · simp only [Except.ok.injEq]; exact eq_comm
    · rfl

theorem main_result {n : Nat} {o : Outcome} (h : main ord R n n1 n2 s1 s2 d1 d2 z = some o) {r : List Seq × List Seq}
    (hr : o.result = .ok r) : ∃ g1 g2 rz hh, PopulateTool.parseLgr R s1 d1 = .ok (some g1) ∧ PopulateTool.parseLgr R s2 d2 = .ok (some g2) ∧
      Root R z rz ∧ harmonize ord n none none g1.lgr g2.lgr (rz.map (fun z => (none, z.lgr))) = some (.ok hh) ∧
      o = HarmonizeTool.finish ord n1 n2 { g1 with md := marked rz.isSome g1.md, lgr := hh.g1 }
        { g2 with md := marked rz.isSome g2.md, lgr := hh.g2 } hh.review1 hh.review2 := by
  unfold main at h
  split at h
  · cases h; cases hr
  rename_i o1 h1
  split at h
  · cases h; cases hr
  rename_i o2 h2
  split at h
  · cases h; cases hr
  rename_i rz h3
  cases o1 with
  | none => cases h; cases hr
  | some g1 =>
    cases o2 with
    | none =>
      dsimp only at h
      split at h <;> cases h <;> cases hr
    | some g2 =>
      dsimp only at h
      unfold both at h
      split at h
      · cases h
      · cases h; cases hr
      · rename_i hh heq
        cases h
        exact ⟨g1, g2, rz, hh, h1, h2, root_iff.1 h3, heq, rfl⟩

/-- What holds of the two results. -/
theorem results {n : Nat} (hx : C99.Sound R.x) (hd1 : DocOk (PopulateTool.reader R) d1) (hd2 : DocOk (PopulateTool.reader R) d2)
    (hdz : ∀ s d, z = some (s, d) → DocOk (PopulateTool.reader R) d) {g1 g2 : Loaded} {rz : Option Loaded} {hh : Harmonized}
    (p1 : PopulateTool.parseLgr R s1 d1 = .ok (some g1)) (p2 : PopulateTool.parseLgr R s2 d2 = .ok (some g2)) (hz : Root R z rz)
    (h : harmonize ord n none none g1.lgr g2.lgr (rz.map (fun z => (none, z.lgr))) = some (.ok hh)) :
    ∃ d1' d2', serializeDoc { g1 with md := marked rz.isSome g1.md, lgr := hh.g1 } = .ok d1' ∧
      serializeDoc { g2 with md := marked rz.isSome g2.md, lgr := hh.g2 } = .ok d2' ∧
      Holds R (rooted g1 rz) (rooted g2 rz) g1 d1' ∧ Holds R (rooted g2 rz) (rooted g1 rz) g2 d2' ∧
      (∀ x, x ∈ hh.review1 ↔ (rooted g1 rz).node x ∧ ¬ (rooted g2 rz).node x) ∧
      ∀ x, x ∈ hh.review2 ↔ (rooted g2 rz).node x ∧ ¬ (rooted g1 rz).node x := by
  have so1 := source (R := PopulateTool.reader R) hx (reader_safe R) hd1 (parse_read p1).2
  have so2 := source (R := PopulateTool.reader R) hx (reader_safe R) hd2 (parse_read p2).2
  have soz : ∀ l, rz = some l → ∃ m, Good R.db true true m l.lgr := by
    rintro l rfl
    unfold Root at hz
    cases z with
    | none => cases hz
    | some p =>
      obtain ⟨s, d⟩ := p
      dsimp only at hz
      split at hz
      · cases hz
      · exact ⟨_, (source (R := PopulateTool.reader R) hx (reader_safe R) (hdz s d rfl) hz).lgr⟩
  have G1 : Good R.db true true (managerOf g1.md) g1.lgr := so1.lgr
  have G2 : Good R.db true true (managerOf g2.md) g2.lgr := so2.lgr
  have e : ∀ g : Loaded, withRoot g.lgr (rz.map (fun z => (none, z.lgr))) = rooted g rz := by
    intro g; cases rz <;> rfl
  have hz' : ∀ w ∈ rz.map (fun z => ((none : UniDb), z.lgr)), WF w.2.rep ∧ Intact w.2.rep := by
    intro w hw
    cases rz with
    | none => simp at hw
    | some l =>
      obtain ⟨m, hG⟩ := soz l rfl
      simp only [Option.map_some, Option.mem_some_iff] at hw
      subst hw
      exact ⟨hG.inv.wf, hG.intact⟩
  obtain ⟨⟨w1, w2⟩, k1, k2, q1, q2, v1, v2⟩ := harmonize_spec G1.inv.wf G2.inv.wf G1.intact G2.intact hz' h
  rw [e, e] at q1 q2
  simp only [e] at v1 v2
  have hmap : (rz.map Loaded.lgr).map (fun z => ((none : UniDb), z)) = rz.map (fun z => (none, z.lgr)) := by cases rz <;> rfl
  obtain ⟨m1, m2⟩ := harmonize_more (rz := rz.map Loaded.lgr) G1.inv.wf G2.inv.wf G1.intact G2.intact (fun l hl => by
    cases rz with
    | none => cases hl
    | some k =>
      obtain ⟨m, hG⟩ := soz k rfl
      cases hl
      exact ⟨hG.inv.wf, hG.intact⟩) (by rw [hmap]; exact h)
  have ins : ∀ {m : RefManager} {g : Loaded}, Good R.db true true m g.lgr → Inside (C34.Allowed R.db true) (rooted g rz) := by
    intro m g hG
    cases rz with
    | none => exact good_inside hG
    | some l =>
      obtain ⟨m', hG'⟩ := soz l rfl
      exact inside_harm (good_inside hG) (good_inside hG')
  have nod : ∀ (g : Loaded) x y, (rooted g rz).edge x y → (rooted g rz).node x := by
    have hg : ∀ (g : LGR) x y, (graph g).edge x y → (graph g).node x := by
      rintro g x y ⟨c, hc, -⟩; exact ⟨c, hc⟩
    intro g
    cases rz with
    | none => exact hg g.lgr
    | some l => exact (harm_closed (hg g.lgr)).node
  obtain ⟨d1', t1, u1⟩ := harmonised_reread (R := PopulateTool.reader R) hx (reader_safe R) hd1 so1 w1 m1 k1 q1 (nod g1)
    (by rw [q1]; exact inside_harm (ins G1) (ins G2)) rz.isSome
  obtain ⟨d2', t2, u2⟩ := harmonised_reread (R := PopulateTool.reader R) hx (reader_safe R) hd2 so2 w2 m2 k2 q2 (nod g2)
    (by rw [q2]; exact inside_harm (ins G2) (ins G1)) rz.isSome
  exact ⟨d1', d2', t1, t2, u1, u2, v1, v2⟩

/-- **C141** (partial) What `lgr_harmonize` does when it ends without an exception, for files of different names: it writes two
files, named after the LGRs; the first is read into the first LGR harmonised with the second (each harmonised with the root zone
LGR first, if there is one), the second into the second harmonised with the first; and it lists the code points of one of them
only. Missing: texts for which the writer or the parser fail (`DocOk`, C104), files of the same name (`same_name_wrong`), and a
root zone LGR that the schema rejects (`root_ignored`). -/
theorem tool_writes_harmonised_partial (hx : C99.Sound R.x) (hd1 : DocOk (PopulateTool.reader R) d1) (hd2 : DocOk (PopulateTool.reader R) d2)
    (hdz : ∀ s d, z = some (s, d) → DocOk (PopulateTool.reader R) d) (hne : n1 ≠ n2) {n : Nat} {o : Outcome}
    (h : main ord R n n1 n2 s1 s2 d1 d2 z = some o) {r1 r2 : List Seq} (hr : o.result = .ok (r1, r2)) :
    ∃ g1 g2 rz d1' d2', (parseDoc (PopulateTool.reader R) [] d1).2 = .ok (some g1) ∧
      (parseDoc (PopulateTool.reader R) [] d2).2 = .ok (some g2) ∧ Root R z rz ∧
      o.files = [(fileName n1, d1'), (fileName n2, d2')] ∧ fileName n1 ≠ fileName n2 ∧
      Holds R (rooted g1 rz) (rooted g2 rz) g1 d1' ∧ Holds R (rooted g2 rz) (rooted g1 rz) g2 d2' ∧
      (∀ x, x ∈ r1 ↔ (rooted g1 rz).node x ∧ ¬ (rooted g2 rz).node x) ∧
      ∀ x, x ∈ r2 ↔ (rooted g2 rz).node x ∧ ¬ (rooted g1 rz).node x := by
  obtain ⟨g1, g2, rz, hh, p1, p2, p3, h4, rfl⟩ := main_result h hr
  obtain ⟨d1', d2', t1, t2, u1, u2, v1, v2⟩ := results hx hd1 hd2 hdz p1 p2 p3 h4
  have hf : fileName n1 ≠ fileName n2 := fun e => hne ((file_names n1 n2).1 e)
  unfold HarmonizeTool.finish write forEach forEach forEach at hr ⊢
  rw [t1] at hr ⊢
  dsimp only at hr ⊢
  rw [t2] at hr ⊢
  dsimp only at hr ⊢
  cases hr
  refine ⟨g1, g2, rz, d1', d2', (parse_read p1).2, (parse_read p2).2, p3, ?_, hf, u1, u2, fun x => ?_, fun x => ?_⟩
  · simp [dset, hf]
  · rw [(ord.seqs_perm _).mem_iff]; exact v1 x
  · rw [(ord.seqs_perm _).mem_iff]; exact v2 x

/-- **C141** (violation) If both files have the same name, in different directories, only the second result is kept: there is
one file. -/
theorem same_name_wrong (hx : C99.Sound R.x) (hd1 : DocOk (PopulateTool.reader R) d1) (hd2 : DocOk (PopulateTool.reader R) d2)
    (hdz : ∀ s d, z = some (s, d) → DocOk (PopulateTool.reader R) d) {n : Nat} {o : Outcome}
    (h : main ord R n n1 n1 s1 s2 d1 d2 z = some o) {r : List Seq × List Seq} (hr : o.result = .ok r) :
    ∃ g1 g2 rz d2', (parseDoc (PopulateTool.reader R) [] d1).2 = .ok (some g1) ∧ (parseDoc (PopulateTool.reader R) [] d2).2 = .ok (some g2) ∧
      Root R z rz ∧ o.files = [(fileName n1, d2')] ∧ Holds R (rooted g2 rz) (rooted g1 rz) g2 d2' := by
  obtain ⟨g1, g2, rz, hh, p1, p2, p3, h4, rfl⟩ := main_result h hr
  obtain ⟨d1', d2', t1, t2, u1, u2, v1, v2⟩ := results hx hd1 hd2 hdz p1 p2 p3 h4
  unfold HarmonizeTool.finish write forEach forEach forEach at hr ⊢
  rw [t1] at hr ⊢
  dsimp only at hr ⊢
  rw [t2] at hr ⊢
  dsimp only at hr ⊢
  exact ⟨g1, g2, rz, d2', (parse_read p1).2, (parse_read p2).2, p3, by simp [dset], u2⟩

/-- **C141** (violation) A root zone LGR which the schema rejects is left out without further notice. -/
theorem root_ignored (ord : SetOrder) (R : Reader) (n : Nat) (n1 n2 : String) (s1 s2 : Option Bool) (d1 d2 dz : Doc) :
    main ord R n n1 n2 s1 s2 d1 d2 (some (some false, dz)) = main ord R n n1 n2 s1 s2 d1 d2 none := rfl

/-- **C141** (partial) When the tool ends without an exception: whenever the documents are read and not rejected by the schema, if no variant
has an empty rule name, two rules, or twice the same reference. -/
theorem tool_returns_partial (hx : C99.Sound R.x) (hd1 : DocOk (PopulateTool.reader R) d1) (hd2 : DocOk (PopulateTool.reader R) d2)
    (hdz : ∀ s d, z = some (s, d) → DocOk (PopulateTool.reader R) d) (hs1 : s1 ≠ some false) (hs2 : s2 ≠ some false)
    {g1 g2 : Loaded} {rz : Option Loaded} (p1 : (parseDoc (PopulateTool.reader R) [] d1).2 = .ok (some g1))
    (p2 : (parseDoc (PopulateTool.reader R) [] d2).2 = .ok (some g2)) (p3 : Root R z rz)
    (hc : ∀ g, g = g1 ∨ g = g2 ∨ rz = some g → ∀ x v, Maps g.lgr x v → v.whenR ≠ some "" ∧ v.notWhenR ≠ some "" ∧
      (v.whenR = none ∨ v.notWhenR = none) ∧ v.refs.Nodup) :
    ∃ n o r, (∀ k, n ≤ k → main ord R k n1 n2 s1 s2 d1 d2 z = some o) ∧ o.result = .ok r := by
  have so1 := source (R := PopulateTool.reader R) hx (reader_safe R) hd1 p1
  have so2 := source (R := PopulateTool.reader R) hx (reader_safe R) hd2 p2
  have soz : ∀ l, rz = some l → ∃ m, Good R.db true true m l.lgr := by
    rintro l rfl
    unfold Root at p3
    cases z with
    | none => cases p3
    | some p =>
      obtain ⟨s, d⟩ := p
      dsimp only at p3
      split at p3
      · cases p3
      · exact ⟨_, (source (R := PopulateTool.reader R) hx (reader_safe R) (hdz s d rfl) p3).lgr⟩
  have clean : ∀ {m : RefManager} {g : Loaded}, Good R.db true true m g.lgr → (g = g1 ∨ g = g2 ∨ rz = some g) → Clean g.lgr := by
    intro m g hG hg
    refine ⟨fun x v hv => ?_, fun x v hv => ⟨?_, (hc g hg x v hv).2.2.2⟩⟩
    · obtain ⟨a, b, c, -⟩ := hc g hg x v hv
      exact ⟨a, b, c⟩
    · obtain ⟨c, hcc, hvc⟩ := hv
      rw [hG.refs]
      exact ((hG.inv.all x c hcc).vars v hvc).2.1
  have q1 : PopulateTool.parseLgr R s1 d1 = .ok (some g1) := by unfold PopulateTool.parseLgr; rw [if_neg hs1]; exact p1
  have q2 : PopulateTool.parseLgr R s2 d2 = .ok (some g2) := by unfold PopulateTool.parseLgr; rw [if_neg hs2]; exact p2
  have G1 : Good R.db true true (managerOf g1.md) g1.lgr := so1.lgr
  have G2 : Good R.db true true (managerOf g2.md) g2.lgr := so2.lgr
  obtain ⟨n, hh, hn⟩ := harmonize_returns ord none none g1.lgr g2.lgr (rz.map (fun z => (none, z.lgr))) G1.inv.wf G2.inv.wf G1.intact G2.intact
    (fun _ => rfl) (fun _ => rfl) (clean G1 (.inl rfl)) (clean G2 (.inr (.inl rfl))) (by
      intro w hw
      cases rz with
      | none => simp at hw
      | some l =>
        obtain ⟨m, hG⟩ := soz l rfl
        simp only [Option.map_some, Option.mem_some_iff] at hw
        subst hw
        exact ⟨hG.inv.wf, hG.intact, fun _ => rfl, clean hG (.inr (.inr rfl))⟩)
  obtain ⟨d1', d2', t1, t2, -⟩ := results hx hd1 hd2 hdz q1 q2 p3 (hn n le_rfl)
  refine ⟨n, HarmonizeTool.finish ord n1 n2 { g1 with md := marked rz.isSome g1.md, lgr := hh.g1 }
    { g2 with md := marked rz.isSome g2.md, lgr := hh.g2 } hh.review1 hh.review2, (ord.seqs hh.review1, ord.seqs hh.review2), fun k hk => ?_, ?_⟩
  · unfold main
    rw [q1, q2, root_iff.2 p3]
    dsimp only
    unfold both
    rw [hn k hk]
  · unfold HarmonizeTool.finish write forEach forEach forEach
    rw [t1]
    dsimp only
    rw [t2]

/-- **C141** Nothing is written, and an exception ends the tool, if the schema rejects a file or a file cannot be read. -/
theorem tool_rejects (ord : SetOrder) (R : Reader) (n : Nat) (n1 n2 : String) (s1 s2 : Option Bool) (d1 d2 : Doc) (z : Option (Option Bool × Doc))
    (h : s1 = some false ∨ s2 = some false ∨ (∀ g, (parseDoc (PopulateTool.reader R) [] d1).2 ≠ .ok (some g)) ∨
      (∀ g, (parseDoc (PopulateTool.reader R) [] d2).2 ≠ .ok (some g)) ∨ ∀ rz, ¬ Root R z rz) :
    ∃ e, main ord R n n1 n2 s1 s2 d1 d2 z = some ⟨[], .error e⟩ := by
  unfold main
  split
  · exact ⟨_, rfl⟩
  rename_i o1 h1
  split
  · exact ⟨_, rfl⟩
  rename_i o2 h2
  split
  · exact ⟨_, rfl⟩
  rename_i rz h3
  cases o1 with
  | none => exact ⟨_, rfl⟩
  | some g1 =>
    cases o2 with
    | none =>
      dsimp only
      split <;> exact ⟨_, rfl⟩
    | some g2 =>
      exfalso
      rcases h with h | h | h | h | h
      · exact (parse_read h1).1 h
      · exact (parse_read h2).1 h
      · exact h _ (parse_read h1).2
      · exact h _ (parse_read h2).2
      · exact h _ (root_iff.1 h3)

/-- **C141** The tool ends, whatever the documents. -/
theorem tool_ends (hx : C99.Sound R.x) (hd1 : DocOk (PopulateTool.reader R) d1) (hd2 : DocOk (PopulateTool.reader R) d2)
    (hdz : ∀ s d, z = some (s, d) → DocOk (PopulateTool.reader R) d) : ∃ n o, ∀ k, n ≤ k → main ord R k n1 n2 s1 s2 d1 d2 z = some o := by
  unfold main
  cases h1 : PopulateTool.parseLgr R s1 d1 with
  | error e => exact ⟨0, _, fun _ _ => rfl⟩
  | ok o1 =>
  cases h2 : PopulateTool.parseLgr R s2 d2 with
  | error e => exact ⟨0, _, fun _ _ => rfl⟩
  | ok o2 =>
  cases h3 : rootLgr R z with
  | error e => exact ⟨0, _, fun _ _ => rfl⟩
  | ok rz =>
  cases o1 with
  | none => exact ⟨0, _, fun _ _ => rfl⟩
  | some g1 =>
  cases o2 with
  | none =>
    dsimp only
    split <;> exact ⟨0, _, fun _ _ => rfl⟩
  | some g2 =>
    dsimp only
    have so1 := (source (R := PopulateTool.reader R) hx (reader_safe R) hd1 (parse_read h1).2).lgr
    have so2 := (source (R := PopulateTool.reader R) hx (reader_safe R) hd2 (parse_read h2).2).lgr
    have hz' : ∀ w ∈ rz.map (fun z => ((none : UniDb), z.lgr)), WF w.2.rep ∧ Intact w.2.rep := by
      intro w hw
      cases rz with
      | none => simp at hw
      | some l =>
        simp only [Option.map_some, Option.mem_some_iff] at hw
        subst hw
        cases z with
        | none => cases h3
        | some p =>
          obtain ⟨s, d⟩ := p
          have := (source (R := PopulateTool.reader R) hx (reader_safe R) (hdz s d rfl) (parse_read h3).2).lgr
          exact ⟨this.inv.wf, this.intact⟩
    obtain ⟨n, out, ho⟩ := harmonize_terminates ord none none g1.lgr g2.lgr (rz.map (fun z => (none, z.lgr))) so1.inv.wf so2.inv.wf
      so1.intact so2.intact hz'
    unfold both
    cases out with
    | error e => exact ⟨n, ⟨[], .error e⟩, fun k hk => by rw [ho k hk]⟩
    | ok hh => exact ⟨n, _, fun k hk => by rw [ho k hk]⟩

/-! ## Examples -/

def docH : Doc :=
  { metaE := some [{ tag := "version", attrs := [("comment", "draft")], text := .plain "1" }]
    data :=
      [{ tag := "range", attrs := [("first-cp", "61"), ("last-cp", "62")] },
       { tag := "char", attrs := [("cp", "0065")], vars := [[("cp", "66"), ("type", "allocatable")]] }] }

def docI : Doc :=
  { metaE := some [{ tag := "version", text := .plain "2" }]
    data := [{ tag := "char", attrs := [("cp", "0065")], vars := [[("cp", "67"), ("type", "blocked")]] }] }

def ord0 : SetOrder :=
  { seqs := id, vars := id, keys := id, strs := id, seqs_perm := fun _ => .refl _, vars_perm := fun _ => .refl _,
    keys_perm := fun _ => .refl _, strs_perm := fun _ => .refl _ }

theorem docH_ok : DocOk (PopulateTool.reader reader0) docH := by
  refine ⟨?_, by decide +kernel, fun h => by cases h⟩
  rintro ms ⟨⟩ e he
  apply melemOk_sound
  revert e
  decide +kernel

theorem docI_ok : DocOk (PopulateTool.reader reader0) docI := by
  refine ⟨?_, by decide +kernel, fun h => by cases h⟩
  rintro ms ⟨⟩ e he
  apply melemOk_sound
  revert e
  decide +kernel

def isDone (o : Option Outcome) (p : Outcome → List Seq × List Seq → Bool) : Bool :=
  match o with
  | some o => match o.result with
    | .ok r => p o r
    | .error _ => false
  | none => false

theorem of_done {o : Option Outcome} {p : Outcome → List Seq × List Seq → Bool} (h : isDone o p = true) :
    ∃ o' r, o = some o' ∧ o'.result = .ok r ∧ p o' r = true := by
  unfold isDone at h
  split at h
  · split at h
    · rename_i o' _ r hr; exact ⟨o', r, rfl, hr, h⟩
    · cases h
  · cases h

abbrev Row := Option String × Option String × List (Option String × Option String)

instance : DecidableEq Row := inferInstance

/-- The code points, their comments and their variants in the files. -/
def shownData (o : Outcome) : List (String × List Row) :=
  o.files.map (fun p => (p.1, p.2.data.map (fun e => (dget e.attrs "cp", dget e.attrs "comment", e.vars.map (fun v => (dget v "cp", dget v "type"))))))

/-- What is written for these documents. -/
def both0 : List (String × List Row) :=
  [("a_harmonized.xml",
        [(some "0061", none, []), (some "0062", none, []),
         (some "0065", none, [(some "0066", some "allocatable"), (some "0067", some "blocked")]),
         (some "0066", none, [(some "0065", some "blocked"), (some "0067", some "blocked")]),
         (some "0067", some "Out-of-repertoire", [(some "0065", some "blocked"), (some "0066", some "blocked"),
           (some "0067", some "out-of-repertoire")])]),
      ("b_harmonized.xml",
        [(some "0065", none, [(some "0066", some "blocked"), (some "0067", some "blocked")]),
         (some "0066", some "Out-of-repertoire", [(some "0065", some "blocked"), (some "0066", some "out-of-repertoire"),
           (some "0067", some "blocked")]),
         (some "0067", none, [(some "0065", some "blocked"), (some "0066", some "blocked")])])]

example : C99.Sound reader0.x ∧ DocOk (PopulateTool.reader reader0) docH ∧ DocOk (PopulateTool.reader reader0) docI ∧
    (∃ o r, main ord0 reader0 20 "a.xml" "b.xml" none none docH docI none = some o ∧ o.result = .ok r ∧
      shownData o = both0 ∧
      r = ([[0x61], [0x62]], [])) ∧
    ∃ o r, main ord0 reader0 20 "a.xml" "a.xml" none none docH docI (some (none, docI)) = some o ∧ o.result = .ok r ∧
      o.files.map Prod.fst = ["a_harmonized.xml"] := by
  refine ⟨C99.x0_sound, docH_ok, docI_ok, ?_, ?_⟩
  · obtain ⟨o, r, h1, h2, h3⟩ := of_done (o := main ord0 reader0 20 "a.xml" "b.xml" none none docH docI none) (p := fun o r => 
      decide (shownData o = both0) && decide (r = ([[0x61], [0x62]], []))) (by decide +kernel)
    rw [Bool.and_eq_true] at h3
    exact ⟨o, r, h1, h2, of_decide_eq_true h3.1, of_decide_eq_true h3.2⟩
  · obtain ⟨o, r, h1, h2, h3⟩ := of_done (o := main ord0 reader0 20 "a.xml" "a.xml" none none docH docI (some (none, docI)))
      (p := fun o _ => decide (o.files.map Prod.fst = ["a_harmonized.xml"])) (by decide +kernel)
    exact ⟨o, r, h1, h2, of_decide_eq_true h3⟩

/-- No variant has a context rule or a reference. -/
def bare (g : Loaded) : Bool :=
  g.lgr.rep.allChars.all (fun c => c.getVariants.all (fun v => v.whenR.isNone && v.notWhenR.isNone && v.refs.isEmpty))

theorem bare_clean {g : Loaded} (hw : WF g.lgr.rep) (h : bare g = true) (x : Seq) (v : Variant) (hv : Maps g.lgr x v) :
    v.whenR ≠ some "" ∧ v.notWhenR ≠ some "" ∧ (v.whenR = none ∨ v.notWhenR = none) ∧ v.refs.Nodup := by
  obtain ⟨c, hc, hvc⟩ := hv
  have := List.all_eq_true.1 (List.all_eq_true.1 h c (C09.lookup_allChars hw hc)) v hvc
  simp only [Bool.and_eq_true, Option.isNone_iff_eq_none, List.isEmpty_iff] at this
  obtain ⟨⟨a, b⟩, d⟩ := this
  rw [a, b, d]
  simp

def isRead (o : Except Err (Option Loaded)) (p : Loaded → Bool) : Bool :=
  match o with
  | .ok (some g) => p g
  | _ => false

theorem of_read {o : Except Err (Option Loaded)} {p : Loaded → Bool} (h : isRead o p = true) : ∃ g, o = .ok (some g) ∧ p g = true := by
  rcases o with e | _ | g
  · cases h
  · cases h
  · exact ⟨g, rfl, h⟩

/-- The hypotheses of `tool_returns_partial`, with a root zone LGR. -/
example : ∃ g1 g2 rz, (parseDoc (PopulateTool.reader reader0) [] docH).2 = .ok (some g1) ∧
    (parseDoc (PopulateTool.reader reader0) [] docI).2 = .ok (some g2) ∧ Root reader0 (some (none, docH)) rz ∧ rz.isSome ∧
    ∀ g, g = g1 ∨ g = g2 ∨ rz = some g → ∀ x v, Maps g.lgr x v → v.whenR ≠ some "" ∧ v.notWhenR ≠ some "" ∧
      (v.whenR = none ∨ v.notWhenR = none) ∧ v.refs.Nodup := by
  obtain ⟨g1, h1, b1⟩ := of_read (o := (parseDoc (PopulateTool.reader reader0) [] docH).2) (p := bare) (by decide +kernel)
  obtain ⟨g2, h2, b2⟩ := of_read (o := (parseDoc (PopulateTool.reader reader0) [] docI).2) (p := bare) (by decide +kernel)
  have w1 := (source (R := PopulateTool.reader reader0) C99.x0_sound (reader_safe reader0) docH_ok h1).lgr.inv.wf
  have w2 := (source (R := PopulateTool.reader reader0) C99.x0_sound (reader_safe reader0) docI_ok h2).lgr.inv.wf
  refine ⟨g1, g2, some g1, h1, h2, h1, rfl, fun g hg => ?_⟩
  rcases hg with rfl | rfl | hg
  · exact bare_clean w1 b1
  · exact bare_clean w2 b2
  · cases hg; exact bare_clean w1 b1

end Lgr.Props.C141

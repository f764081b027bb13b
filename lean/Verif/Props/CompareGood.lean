import Verif.Props.RulesAny
import Verif.Props.DocXml
import Verif.Props.CompareRefs
import Verif.Props.CompareRules
import Verif.CompareTool

/-!
# C140: the entries of a union and an intersection can be written
-/

namespace Lgr.Props.C140
open Lgr LGR Repertoire Xml DocXml Compare C50 C26 C30 C34 C104

/-- An entry whose tags are words and whose texts are XML characters. -/
structure Neat (c : CharObj) : Prop where
  tags : ∀ t ∈ c.attrs.tags, t ≠ "" ∧ ' ' ∉ t.toList
  xml : ∀ s ∈ texts c, xmlOk s = true

variable {m : RefManager} {g : LGR}

theorem xmlOk_append {a b : String} (ha : xmlOk a = true) (hb : xmlOk b = true) : xmlOk (a ++ b) = true := by
  unfold xmlOk at *
  rw [String.toList_append, List.all_append, ha, hb]; rfl

theorem choose_ok {a b : Option String} (ha : ∀ s, a = some s → xmlOk s = true) (hb : ∀ s, b = some s → xmlOk s = true) :
    ∀ s, letUserChoose a b = some s → xmlOk s = true := by
  intro s hs
  cases a with
  | none => exact hb s (by simpa [letUserChoose] using hs)
  | some x =>
    cases b with
    | none => exact ha s (by simpa [letUserChoose] using hs)
    | some y =>
      simp only [letUserChoose] at hs
      split at hs
      · exact ha s hs
      · cases hs
        exact xmlOk_append (xmlOk_append (ha _ rfl) (by decide +kernel)) (hb _ rfl)

theorem good_cp (h : Good none true false m g) (k : Seq) {comment whenR notWhenR : Option String} {tags : List String}
    (hc : ∀ s, comment = some s → xmlOk s = true) (hw : ∀ s, whenR = some s → xmlOk s = true)
    (hn : ∀ s, notWhenR = some s → xmlOk s = true) (ht : ∀ t ∈ tags, t ≠ "" ∧ ' ' ∉ t.toList)
    (hx : ∀ t ∈ tags, xmlOk t = true) :
    Good none true false m (g.addCp none (.seq k) { comment, tag := tags, whenR, notWhenR }).1 := by
  have ha : AttrsOk (optAttr "comment" comment ++ optAttr "when" whenR ++ optAttr "not-when" notWhenR ++
      listAttr "tag" tags) := by
    intro p hp
    simp only [List.mem_append] at hp
    rcases hp with ((hp | hp) | hp) | hp
    · cases comment with
      | none => simp [optAttr] at hp
      | some v => simp only [optAttr, List.mem_singleton] at hp; rw [hp]; exact hc v rfl
    · cases whenR with
      | none => simp [optAttr] at hp
      | some v => simp only [optAttr, List.mem_singleton] at hp; rw [hp]; exact hw v rfl
    · cases notWhenR with
      | none => simp [optAttr] at hp
      | some v => simp only [optAttr, List.mem_singleton] at hp; rw [hp]; exact hn v rfl
    · unfold listAttr at hp
      split at hp
      · simp only [List.mem_singleton] at hp
        rw [hp]
        exact xmlOk_join hx
      · simp at hp
  have ho : optsOf false (optAttr "comment" comment ++ optAttr "when" whenR ++ optAttr "not-when" notWhenR ++
      listAttr "tag" tags) = { comment, tag := tags, whenR, notWhenR } := by
    have hwords : Words tags := ⟨fun w hw => (ht w hw).2, fun he => (ht "" (by rw [he]; simp)).1 rfl⟩
    unfold optsOf
    have e1 : getList (optAttr "comment" comment ++ optAttr "when" whenR ++ optAttr "not-when" notWhenR ++
        listAttr "tag" tags) "tag" = tags := by
      apply getList_of hwords
      cases comment <;> cases whenR <;> cases notWhenR <;> cases tags <;> simp [optAttr, listAttr, dget]
    have e2 : getList (optAttr "comment" comment ++ optAttr "when" whenR ++ optAttr "not-when" notWhenR ++
        listAttr "tag" tags) "ref" = [] := by
      apply getList_of ⟨by simp, by simp⟩
      cases comment <;> cases whenR <;> cases notWhenR <;> cases tags <;> simp [optAttr, listAttr, dget]
    rw [e1, e2]
    cases comment <;> cases whenR <;> cases notWhenR <;> cases tags <;> simp [optAttr, listAttr, dget]
  rw [← ho]
  exact good_addCp (fun hf => by cases hf) h ha k

theorem good_var (h : Good none true false m g) (k v : Seq) {type comment whenR notWhenR : Option String}
    (hty : ∀ s, type = some s → xmlOk s = true)
    (hc : ∀ s, comment = some s → xmlOk s = true) (hw : ∀ s, whenR = some s → xmlOk s = true)
    (hn : ∀ s, notWhenR = some s → xmlOk s = true) :
    Good none true false m (g.addVariant none (.seq k) (.seq v) type { whenR, notWhenR, comment }).1 := by
  have ha : AttrsOk (optAttr "type" type ++ optAttr "when" whenR ++ optAttr "not-when" notWhenR ++
      optAttr "comment" comment) := by
    intro p hp
    simp only [List.mem_append] at hp
    rcases hp with ((hp | hp) | hp) | hp
    · cases type with
      | none => simp [optAttr] at hp
      | some v => simp only [optAttr, List.mem_singleton] at hp; rw [hp]; exact hty v rfl
    · cases whenR with
      | none => simp [optAttr] at hp
      | some v => simp only [optAttr, List.mem_singleton] at hp; rw [hp]; exact hw v rfl
    · cases notWhenR with
      | none => simp [optAttr] at hp
      | some v => simp only [optAttr, List.mem_singleton] at hp; rw [hp]; exact hn v rfl
    · cases comment with
      | none => simp [optAttr] at hp
      | some v => simp only [optAttr, List.mem_singleton] at hp; rw [hp]; exact hc v rfl
  have e2 : getList (optAttr "type" type ++ optAttr "when" whenR ++ optAttr "not-when" notWhenR ++
      optAttr "comment" comment) "ref" = [] := by
    apply getList_of ⟨by simp, by simp⟩
    cases comment <;> cases whenR <;> cases notWhenR <;> cases type <;> simp [optAttr, dget]
  have ho : varOptsOf false (optAttr "type" type ++ optAttr "when" whenR ++ optAttr "not-when" notWhenR ++
      optAttr "comment" comment) = { whenR, notWhenR, comment } := by
    unfold varOptsOf
    rw [e2]
    cases comment <;> cases whenR <;> cases notWhenR <;> cases type <;> simp [optAttr, dget]
  have hd : dget (optAttr "type" type ++ optAttr "when" whenR ++ optAttr "not-when" notWhenR ++
      optAttr "comment" comment) "type" = type := by
    cases comment <;> cases whenR <;> cases notWhenR <;> cases type <;> simp [optAttr, dget]
  have := good_addVariant (fun hf => by cases hf) h ha k v
  rw [ho, hd] at this
  exact this

/-- A loop whose steps keep what is good keeps it. -/
theorem good_loop {β : Type} {f : LGR → β → LGR × Except Err Unit} : ∀ (l : List β) {g : LGR},
    Good none true false m g → (∀ g b, b ∈ l → Good none true false m g → Good none true false m (f g b).1) →
    Good none true false m (forEach f g l).1
  | [], _, h, _ => h
  | b :: l, g, h, hf => by
    rw [forEach]
    have h1 := hf g b (by simp) h
    rcases hr : f g b with ⟨g1, o⟩
    rw [hr] at h1
    cases o with
    | error e => exact h1
    | ok u => exact good_loop l h1 (fun g b hb => hf g b (List.mem_cons_of_mem _ hb))

/-- The texts of a variant. -/
def VarXml (v : Variant) : Prop := ∀ s ∈ varTexts v, xmlOk s = true

theorem neat_var {c : CharObj} (h : Neat c) {v : Variant} (hv : v ∈ c.getVariants) : VarXml v :=
  fun s hs => h.xml s (List.mem_append.2 (.inr (List.mem_flatMap.2 ⟨v, hv, hs⟩)))

theorem good_addVars (k : Seq) (h : Good none true false m g) (vs : List Variant) (hv : ∀ v ∈ vs, VarXml v) :
    Good none true false m (addVars k g vs).1 := by
  refine good_loop vs h (fun g v hm hg => good_var hg _ _ ?_ ?_ ?_ ?_)
  · intro s hs; exact hv v hm s (by simp [varTexts, hs])
  · intro s hs; exact hv v hm s (by simp [varTexts, hs])
  · intro s hs; exact hv v hm s (by simp [varTexts, hs])
  · intro s hs; exact hv v hm s (by simp [varTexts, hs])

variable {ord : SetOrder}

theorem neat_comment {c : CharObj} (h : Neat c) : ∀ s, c.attrs.comment = some s → xmlOk s = true :=
  fun s hs => h.xml s (by simp [texts, hs])

theorem neat_tag {c : CharObj} (h : Neat c) : ∀ t ∈ c.attrs.tags, xmlOk t = true :=
  fun s hs => h.xml s (by simp [texts, hs])

theorem good_unionChar (h : Good none true false m g) {c1 c2 : CharObj} (h1 : Neat c1) (h2 : Neat c2)
    (hw1 : CharWF c1) (hw2 : CharWF c2) : Good none true false m (unionChar ord g c1 c2).1 := by
  unfold unionChar
  dsimp only
  have hmem : ∀ t ∈ ord.strs (addNew id (toSet id c2.attrs.tags) (toSet id c1.attrs.tags)),
      t ∈ c1.attrs.tags ∨ t ∈ c2.attrs.tags := by
    intro t ht
    rw [(ord.strs_perm _).mem_iff, mem_union] at ht
    exact ht
  have hg := good_cp h c1.cp (comment := letUserChoose c1.attrs.comment c2.attrs.comment) (whenR := none) (notWhenR := none)
    (tags := ord.strs (addNew id (toSet id c2.attrs.tags) (toSet id c1.attrs.tags)))
    (choose_ok (neat_comment h1) (neat_comment h2)) (by simp) (by simp)
    (fun t ht => (hmem t ht).elim (h1.tags t) (h2.tags t)) (fun t ht => (hmem t ht).elim (neat_tag h1 t) (neat_tag h2 t))
  rcases hr : g.addCp none (.seq c1.cp) { comment := letUserChoose c1.attrs.comment c2.attrs.comment, tag := ord.strs (addNew id (toSet id c2.attrs.tags) (toSet id c1.attrs.tags)) } with ⟨g1, o⟩
  rw [hr] at hg
  cases o with
  | error e => exact hg
  | ok u =>
    refine good_addVars _ hg _ (fun v hv => ?_)
    obtain ⟨-, hm⟩ := union_list ord c1.getVariants c2.getVariants (C08.getVariants_keys_nodup hw1.varWF)
      (C08.getVariants_keys_nodup hw2.varWF)
    rcases (hm v).1 hv with hv | ⟨hv, -⟩
    · exact neat_var h1 hv
    · exact neat_var h2 hv

theorem good_copyCp (h : Good none true false m g) {c : CharObj} (hc : Neat c) :
    Good none true false m (copyCp g c).1 := by
  unfold copyCp
  refine good_cp h c.cp (neat_comment hc) ?_ ?_ hc.tags (neat_tag hc)
  · intro s hs; exact hc.xml s (by simp [texts, hs])
  · intro s hs; exact hc.xml s (by simp [texts, hs])

theorem good_intersectChar (h : Good none true false m g) {c1 c2 : CharObj} (h1 : Neat c1) (h2 : Neat c2) :
    Good none true false m (intersectChar ord g c1 c2).1 := by
  unfold intersectChar
  dsimp only
  have hmem : ∀ t ∈ ord.strs ((toSet id c1.attrs.tags).filter (fun t => decide (t ∈ c2.attrs.tags))),
      t ∈ c1.attrs.tags := fun t ht => ((C31.inter_tags ord _ _).2 t |>.1 ht).1
  have hg := good_cp h c1.cp (comment := letUserChoose c1.attrs.comment c2.attrs.comment) (whenR := none) (notWhenR := none)
    (tags := ord.strs ((toSet id c1.attrs.tags).filter (fun t => decide (t ∈ c2.attrs.tags))))
    (choose_ok (neat_comment h1) (neat_comment h2)) (by simp) (by simp)
    (fun t ht => h1.tags t (hmem t ht)) (fun t ht => neat_tag h1 t (hmem t ht))
  rcases hr : g.addCp none (.seq c1.cp) { comment := letUserChoose c1.attrs.comment c2.attrs.comment, tag := ord.strs ((toSet id c1.attrs.tags).filter (fun t => decide (t ∈ c2.attrs.tags))) } with ⟨g1, o⟩
  rw [hr] at hg
  cases o with
  | error e => exact hg
  | ok u =>
    refine good_loop _ hg (fun g b hb hg => good_var (comment := none) hg _ _ (by simp) (by simp) ?_ ?_)
    all_goals
      obtain ⟨-, hm⟩ := C31.inter_list ord (c1.getVariants.map Variant.key) (c2.getVariants.map Variant.key)
      obtain ⟨v, hv, rfl⟩ := List.mem_map.1 ((hm b).1 hb).1
      intro s hs
      exact neat_var h1 hv s (by simp only [Variant.key] at hs; simp [varTexts, hs])

/-! ## The whole -/

/-- An LGR whose entries are neat. -/
structure NeatLgr (g : LGR) : Prop where
  wf : WF g.rep
  intact : Intact g.rep
  all : ∀ k c, g.rep.lookup k = some c → Neat c

theorem neat_expanded {e : LGR} (h : NeatLgr g) (he : g.expandRanges none = (e, .ok ())) :
    WF e.rep ∧ ∀ k c, e.rep.lookup k = some c → Neat c := by
  obtain ⟨w, -, -, l⟩ := expanded h.wf h.intact he
  refine ⟨w, fun k c hc => ?_⟩
  rw [l] at hc
  cases hk : g.rep.lookup k with
  | none => rw [hk] at hc; cases hc
  | some d =>
    rw [hk] at hc
    cases hc
    have := h.all k d hk
    exact ⟨this.tags, this.xml⟩

theorem good_union {g1 g2 l : LGR} (h1 : NeatLgr g1) (h2 : NeatLgr g2) (h : (unionLgrs ord none none g1 g2).2 = .ok l) :
    Good none true false (refsOf (unionValues ord g1.refs g2.refs)) l := by
  obtain ⟨e1, e2, gc, gf, x1, x2, -, hc, hf, hs⟩ := unionLgrs_ok h
  obtain ⟨w1, n1⟩ := neat_expanded h1 x1
  obtain ⟨w2, n2⟩ := neat_expanded h2 x2
  obtain ⟨-, r1, -, -⟩ := expanded h1.wf h1.intact x1
  obtain ⟨-, r2, -, -⟩ := expanded h2.wf h2.intact x2
  rw [r1, r2] at hc
  have gc' : Good none true false (refsOf (unionValues ord g1.refs g2.refs)) gc := by
    have := good_loop (f := unionStep ord none none e1 e2)
      (ord.seqs ((cps e1).filter (fun k => decide (k ∈ cps e2)))) (good_new (refsOf (unionValues ord g1.refs g2.refs)))
      (fun g k _ hg => by
        unfold unionStep
        cases hk1 : e1.getChar none (.seq k) with
        | error e => exact hg
        | ok c1 =>
          dsimp only
          cases hk2 : e2.getChar none (.seq k) with
          | error e => exact hg
          | ok c2 =>
            exact good_unionChar hg (n1 k c1 (getChar_seq hk1)) (n2 k c2 (getChar_seq hk2))
              (lookup_charWF w1 (getChar_seq hk1)) (lookup_charWF w2 (getChar_seq hk2)))
    rw [hc] at this
    exact this
  have gf' : Good none true false (refsOf (unionValues ord g1.refs g2.refs)) gf := by
    have := good_loop (f := firstStep none e1)
      (ord.seqs ((cps e1).filter (fun k => decide (k ∉ cps e2)))) gc'
      (fun g k _ hg => by
        unfold firstStep
        cases hk1 : e1.getChar none (.seq k) with
        | error e => exact hg
        | ok c1 => exact good_copyCp hg (n1 k c1 (getChar_seq hk1)))
    rw [hf] at this
    exact this
  have := good_loop (f := secondStep none e2)
    (ord.seqs ((cps e2).filter (fun k => decide (k ∉ cps e1)))) gf'
    (fun g k _ hg => by
      unfold secondStep
      cases hk2 : e2.getChar none (.seq k) with
      | error e => exact hg
      | ok c2 =>
        have hn := n2 k c2 (getChar_seq hk2)
        have hg2 := good_copyCp hg hn
        dsimp only
        rcases hr : copyCp g c2 with ⟨g3, o⟩
        rw [hr] at hg2
        cases o with
        | error e => exact hg2
        | ok u => exact good_addVars _ hg2 _ (fun v hv => neat_var hn hv))
  rw [hs] at this
  exact this

theorem good_intersect {g1 g2 l : LGR} (h1 : NeatLgr g1) (h2 : NeatLgr g2)
    (h : (intersectLgrs ord none none g1 g2).2 = .ok l) :
    Good none true false (refsOf (intersectValues ord g1.refs g2.refs)) l := by
  obtain ⟨e1, e2, x1, x2, -, hc⟩ := C31.intersectLgrs_ok h
  obtain ⟨w1, n1⟩ := neat_expanded h1 x1
  obtain ⟨w2, n2⟩ := neat_expanded h2 x2
  obtain ⟨-, r1, -, -⟩ := expanded h1.wf h1.intact x1
  obtain ⟨-, r2, -, -⟩ := expanded h2.wf h2.intact x2
  rw [r1, r2] at hc
  have := good_loop (f := intersectStep ord none none e1 e2)
    (ord.seqs ((cps e1).filter (fun k => decide (k ∈ cps e2)))) (good_new (refsOf (intersectValues ord g1.refs g2.refs)))
    (fun g k _ hg => by
      unfold intersectStep
      cases hk1 : e1.getChar none (.seq k) with
      | error e => exact hg
      | ok c1 =>
        dsimp only
        cases hk2 : e2.getChar none (.seq k) with
        | error e => exact hg
        | ok c2 => exact good_intersectChar hg (n1 k c1 (getChar_seq hk1)) (n2 k c2 (getChar_seq hk2)))
  rw [hc] at this
  exact this

/-- What could be read without `force` can be read with it. -/
theorem good_forced (h : Good none true false m g) : Fit none true true m g :=
  ⟨h.refs, h.raises, ⟨h.inv.wf, fun k c hk => by
    have hr := h.inv.all k c hk
    exact ⟨hr.allowed, hr.refs, hr.refWords, hr.tagWords, hr.xml, fun hf => (by cases hf),
      fun v hv => ⟨(hr.vars v hv).1, (hr.vars v hv).2.1, (hr.vars v hv).2.2.1, fun hf => (by cases hf)⟩⟩⟩,
    h.intact, h.tags, h.keys⟩

end Lgr.Props.C140

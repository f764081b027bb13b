import Verif.Sections
import Verif.Props.AllTags
import Verif.Props.Rfc7940Tool
import Verif.Props.RulesDb
import Verif.Props.DocXmlWrong

/-!
# C151: the sections of a document, in any order and number
-/

namespace Lgr.Props.C151
open Lgr Xml MetaXml RulesXml DocXml Sections

/-! ## Specification -/

/-- The sections of a document in the order of RFC 7940. -/
def regular (d : Doc) : List Sect :=
  d.metaE.toList.map .metaE ++ (.data d.data :: d.rules.toList.map .rules)

/-- A section is no `meta`. -/
def NoMeta (l : List Sect) : Prop := ∀ ms, Sect.metaE ms ∉ l

/-- All elements of the `data` sections. -/
def allData : List Sect → List Elem
  | [] => []
  | .data es :: l => es ++ allData l
  | _ :: l => allData l

/-- All elements of the `rules` sections. -/
def allRules : List Sect → List Node
  | [] => []
  | .rules ns :: l => ns ++ allRules l
  | _ :: l => allRules l

/-! ## The state of the checks does not matter -/

open C125 (forEach_part)

theorem guard_part (f : Bool) (s t : PState) (r : LGR × Except Err Unit) :
    (Xml.guard f s r).1.lgr = (Xml.guard f t r).1.lgr ∧ (Xml.guard f s r).2 = (Xml.guard f t r).2 := by
  obtain ⟨g, o⟩ := r
  cases o with
  | ok u => exact ⟨rfl, rfl⟩
  | error e =>
    simp only [Xml.guard]
    split <;> exact ⟨rfl, rfl⟩

theorem var_part (db : UniDb) (f : Bool) (cp : Seq) (s t : PState) (a : XAttrs) (h : s.lgr = t.lgr) :
    (parseVar db f cp s a).1.lgr = (parseVar db f cp t a).1.lgr ∧
      (parseVar db f cp s a).2 = (parseVar db f cp t a).2 := by
  unfold parseVar
  cases hg : getCp a with
  | error e => exact ⟨h, rfl⟩
  | ok v => dsimp only; rw [h]; exact guard_part f s t _

theorem elem_part (db : UniDb) (fo : Bool) (s t : PState) (e : Elem) (h : s.lgr = t.lgr) :
    (parseElem db fo s e).1.lgr = (parseElem db fo t e).1.lgr ∧
      (parseElem db fo s e).2 = (parseElem db fo t e).2 := by
  unfold parseElem
  split
  · cases hg : getCp e.attrs with
    | error er => exact ⟨h, rfl⟩
    | ok cp =>
      dsimp only
      rw [C104.orderCheck_lgr, C104.orderCheck_lgr, h]
      have := guard_part fo (orderCheck s cp) (orderCheck t cp)
        (t.lgr.addCp db (.seq cp) (optsOf fo e.attrs))
      generalize Xml.guard fo (orderCheck s cp) _ = u at this
      generalize Xml.guard fo (orderCheck t cp) _ = v at this
      obtain ⟨s1, o⟩ := u
      obtain ⟨t1, o'⟩ := v
      dsimp only at this
      obtain ⟨h1, rfl⟩ := this
      cases o with
      | error er => exact ⟨h1, rfl⟩
      | ok u => exact forEach_part (π := PState.lgr) (fun s t a h => var_part db fo cp s t a h) e.vars s1 t1 h1
  · split
    · cases hf : getHex e.attrs "first-cp" with
      | error er => exact ⟨h, rfl⟩
      | ok f =>
        cases hl : getHex e.attrs "last-cp" with
        | error er => exact ⟨h, rfl⟩
        | ok l => dsimp only; rw [h]; exact guard_part fo s t _
    · exact ⟨h, rfl⟩

theorem forEach_app' {σ α : Type} (f : σ → α → σ × Except Err Unit) (s : σ) (l m : List α) :
    forEach f s (l ++ m) = match forEach f s l with
      | (s', .ok ()) => forEach f s' m
      | (s', .error e) => (s', .error e) := by
  induction l generalizing s with
  | nil => rfl
  | cons a l ih =>
    rw [List.cons_append, forEach, forEach]
    rcases f s a with ⟨s', e | u⟩
    · rfl
    · exact ih s'

/-- What is read from elements of `data`, as far as the LGR goes. -/
def lgrOf (db : UniDb) (f : Bool) (g : LGR) (es : List Elem) : LGR × Except Err Unit :=
  match forEach (parseElem db f) { lgr := g } es with
  | (p, o) => (p.lgr, o)

theorem parseData_lgr (db : UniDb) (f : Bool) (s : PState) (es : List Elem) :
    (parseData db f s es).1.lgr = (lgrOf db f s.lgr es).1 ∧ (parseData db f s es).2 = (lgrOf db f s.lgr es).2 := by
  have h := forEach_part (π := PState.lgr) (fun s t a h => elem_part db f s t a h) es { s with prev := [] } { lgr := s.lgr } rfl
  unfold parseData lgrOf
  generalize forEach (parseElem db f) { s with prev := [] } es = u at h
  generalize forEach (parseElem db f) { lgr := s.lgr } es = v at h
  obtain ⟨p, o⟩ := u
  obtain ⟨q, o'⟩ := v
  obtain ⟨h1, rfl⟩ := h
  cases o with
  | error e => exact ⟨h1, rfl⟩
  | ok u => exact ⟨h1, rfl⟩

theorem lgrOf_append (db : UniDb) (f : Bool) (g : LGR) (es fs : List Elem) :
    lgrOf db f g (es ++ fs) =
      match lgrOf db f g es with
      | (g1, .error e) => (g1, .error e)
      | (g1, .ok ()) => lgrOf db f g1 fs := by
  unfold lgrOf
  rw [forEach_app']
  rcases h : forEach (parseElem db f) { lgr := g } es with ⟨p, e | u⟩
  · rfl
  · dsimp only
    have h := forEach_part (π := PState.lgr) (fun s t a h => elem_part db f s t a h) fs p { lgr := p.lgr } rfl
    exact Prod.ext h.1 h.2

theorem metaElem_part (x : MetaXml.Ctx) (f : Bool) (s t : MState) (e : MElem) (h : s.md = t.md) :
    (parseMetaElem x f s e).1.md = (parseMetaElem x f t e).1.md ∧
      (parseMetaElem x f s e).2 = (parseMetaElem x f t e).2 := by
  obtain ⟨md, c1, f1⟩ := s
  obtain ⟨md', c2, f2⟩ := t
  cases h
  unfold parseMetaElem
  dsimp only
  split
  · unfold parseDate
    cases readText x e.text <;> exact ⟨rfl, rfl⟩
  split
  · cases readText x e.text with
    | none => exact ⟨rfl, rfl⟩
    | some t =>
      dsimp only
      rcases setUnicodeVersion x md t f with ⟨m, failed, er | u⟩ <;> cases failed <;> exact ⟨rfl, rfl⟩
  split
  · exact ⟨rfl, rfl⟩
  split
  · cases readText x e.text with
    | none => exact ⟨rfl, rfl⟩
    | some l =>
      dsimp only [parseLanguage]
      rcases x.check l with _ | _ | _ <;> cases f <;>
        (dsimp only [MState.note]; rcases Metadata.addLanguage x.check md.languages l _ with ⟨ls, er | u⟩ <;> exact ⟨rfl, rfl⟩)
  split
  · exact ⟨rfl, rfl⟩
  split
  · cases readText x e.text <;> exact ⟨rfl, rfl⟩
  split
  · refine forEach_part (π := MState.md) ?_ e.refs _ _ rfl
    intro s t a h
    unfold parseRef
    rw [h]
    exact ⟨rfl, rfl⟩
  · exact ⟨rfl, rfl⟩

theorem parseMeta_part (x : MetaXml.Ctx) (f : Bool) (c c' : Rfc7940.Results) (es : List MElem) :
    (parseMeta x f c es).1.md = (parseMeta x f c' es).1.md ∧ (parseMeta x f c es).2 = (parseMeta x f c' es).2 := by
  have h := forEach_part (π := MState.md) (fun s t a h => metaElem_part x f s t a h) es { checks := c } { checks := c' } rfl
  unfold parseMeta
  generalize forEach (parseMetaElem x f) { checks := c } es = u at h
  generalize forEach (parseMetaElem x f) { checks := c' } es = v at h
  obtain ⟨p, o⟩ := u
  obtain ⟨q, o'⟩ := v
  obtain ⟨h1, rfl⟩ := h
  cases o with
  | error e => exact ⟨h1, rfl⟩
  | ok u => exact ⟨h1, rfl⟩

/-- The effect of a section on the LGR depends on the LGR only. -/
theorem sect_part (R : Reader) (s t : Reading) (x : Sect) (h : s.lgr = t.lgr) :
    (readSect R s x).1.lgr = (readSect R t x).1.lgr ∧ (readSect R s x).2 = (readSect R t x).2 := by
  obtain ⟨c, g⟩ := s
  obtain ⟨c', g'⟩ := t
  cases h
  cases x with
  | metaE ms =>
    have h := parseMeta_part R.x R.force c c' ms
    unfold readSect
    dsimp only
    generalize parseMeta R.x R.force c ms = u at h
    generalize parseMeta R.x R.force c' ms = v at h
    obtain ⟨p, o⟩ := u
    obtain ⟨q, o'⟩ := v
    obtain ⟨h1, rfl⟩ := h
    dsimp only at h1
    cases o with
    | error e => exact ⟨rfl, rfl⟩
    | ok u => dsimp only; rw [h1]; exact ⟨rfl, rfl⟩
  | data es =>
    unfold readSect
    cases g with
    | none => exact ⟨rfl, rfl⟩
    | some g =>
      dsimp only
      have h1 := parseData_lgr R.db R.force { lgr := g.lgr, checks := c } es
      have h2 := parseData_lgr R.db R.force { lgr := g.lgr, checks := c' } es
      have h : (parseData R.db R.force { lgr := g.lgr, checks := c } es).1.lgr =
          (parseData R.db R.force { lgr := g.lgr, checks := c' } es).1.lgr ∧ _ := ⟨h1.1.trans h2.1.symm, h1.2.trans h2.2.symm⟩
      clear h1 h2
      generalize parseData R.db R.force { lgr := g.lgr, checks := c } es = u at h
      generalize parseData R.db R.force { lgr := g.lgr, checks := c' } es = v at h
      obtain ⟨p, o⟩ := u
      obtain ⟨q, o'⟩ := v
      obtain ⟨h1, rfl⟩ := h
      dsimp only at h1
      cases o with
      | error e => exact ⟨rfl, rfl⟩
      | ok u => dsimp only; rw [h1]; exact ⟨rfl, rfl⟩
  | rules ns =>
    unfold readSect
    cases g with
    | none => exact ⟨rfl, rfl⟩
    | some g =>
      dsimp only
      rcases parseRules R.parser (g.rules, { nextId := g.ids }) ns with ⟨⟨r, t⟩, e | u⟩ <;> exact ⟨rfl, rfl⟩
  | other => exact ⟨rfl, rfl⟩

theorem readDoc_part (R : Reader) (c c' : Rfc7940.Results) (l : List Sect) : (readDoc R c l).2 = (readDoc R c' l).2 := by
  have h := forEach_part (π := Reading.lgr) (fun s t a h => sect_part R s t a h) l { checks := c } { checks := c' } rfl
  unfold readDoc
  generalize forEach (readSect R) { checks := c } l = u at h
  generalize forEach (readSect R) { checks := c' } l = v at h
  obtain ⟨p, o⟩ := u
  obtain ⟨q, o'⟩ := v
  obtain ⟨h1, rfl⟩ := h
  dsimp only at h1
  cases o with
  | error e => rfl
  | ok u => dsimp only; rw [h1]

/-! ## The regular case, and the last `meta` -/

/-- A document with one section of each kind, in the order of RFC 7940, is read as before. -/
theorem regular_read (R : Reader) (c : Rfc7940.Results) (d : Doc) :
    (readDoc R c (regular d)).2 = (parseDoc R c d).2 ∧
      (d.metaE.isSome → (readDoc R c (regular d)).1 = (parseDoc R c d).1) := by
  obtain ⟨mo, es, ro⟩ := d
  cases mo with
  | none =>
    refine ⟨?_, fun h => by cases h⟩
    simp only [regular, Option.toList, List.map_nil, List.nil_append, parseDoc, orphan, readDoc, forEach, readSect]
    cases orphanData es with
    | error e => rfl
    | ok u =>
      cases ro with
      | none => simp [forEach, orphanRules]
      | some ns =>
        simp only [List.map_cons, List.map_nil, forEach, readSect, Option.getD]
        cases orphanRules ns <;> rfl
  | some ms =>
    suffices h : readDoc R c (regular ⟨some ms, es, ro⟩) = parseDoc R c ⟨some ms, es, ro⟩ by
      rw [h]; exact ⟨rfl, fun _ => rfl⟩
    simp only [regular, Option.toList, List.map_nil, List.map_cons, List.cons_append, List.nil_append, parseDoc, readDoc,
      forEach, readSect]
    rcases parseMeta R.x R.force c ms with ⟨m, e | u⟩
    · rfl
    · dsimp only
      rcases parseData R.db R.force { lgr := newLgr R m.md, checks := m.checks } es with ⟨p, e | u⟩
      · rfl
      · dsimp only
        have h0 : withTags p.lgr {} = newRules p.lgr := by
          simp [withTags, newRules]
        rw [h0]
        cases ro with
        | none => rfl
        | some ns =>
          simp only [List.map_cons, List.map_nil, forEach, readSect, Option.getD]
          rcases parseRules R.parser (newRules p.lgr, {}) ns with ⟨⟨r, t⟩, e | u⟩ <;> rfl

/-- What was read before a `meta` is dropped: only what comes from the last one on counts, as long as the
rest can be read. -/
theorem last_meta (R : Reader) (c : Rfc7940.Results) (pre post : List Sect) (ms : List MElem) :
    (readDoc R c (pre ++ .metaE ms :: post)).2 =
      match (readDoc R c pre).2 with
      | .error e => .error e
      | .ok _ => (readDoc R c (.metaE ms :: post)).2 := by
  unfold readDoc
  rw [forEach_app']
  rcases h : forEach (readSect R) { checks := c } pre with ⟨s, e | u⟩
  · rfl
  · dsimp only
    have key : ∀ c', (readSect R { s with checks := c' } (.metaE ms)).2 = (readSect R { checks := c' } (.metaE ms)).2 ∧
        ((readSect R { s with checks := c' } (.metaE ms)).2 = .ok () →
          readSect R { s with checks := c' } (.metaE ms) = readSect R { checks := c' } (.metaE ms)) := by
      intro c'
      simp only [readSect]
      rcases parseMeta R.x R.force c' ms with ⟨m, e | u⟩
      · exact ⟨rfl, fun h => by cases h⟩
      · exact ⟨rfl, fun _ => rfl⟩
    obtain ⟨k1, k2⟩ := key s.checks
    have hpart := readDoc_part R s.checks c (.metaE ms :: post)
    unfold readDoc at hpart
    rw [← hpart]
    rw [forEach, forEach]
    rcases hr : readSect R { s with checks := s.checks } (.metaE ms) with ⟨s1, e | u⟩
    · rw [hr] at k1
      dsimp only at k1
      rcases hr' : readSect R { checks := s.checks } (.metaE ms) with ⟨s2, e' | u⟩
      · rw [hr'] at k1; cases k1
        rfl
      · rw [hr'] at k1; cases k1
    · rw [hr] at k2
      rw [← k2 rfl]

/-! ## No `meta` -/

/-- Elements which make something of an LGR. -/
def Counts : Sect → Prop
  | .data es => ∃ e ∈ es, e.tag = "char" ∨ e.tag = "range"
  | .rules ns => ∃ n ∈ ns, n.tag = "class" ∨ (combOf n.tag).isSome ∨ n.tag = "rule" ∨ n.tag = "action"
  | _ => False

theorem orphanData_ok : ∀ es, orphanData es = .ok () ↔ ∀ e ∈ es, e.tag ≠ "char" ∧ e.tag ≠ "range"
  | [] => by simp [orphanData]
  | e :: es => by
    rw [orphanData, List.forall_mem_cons, ← orphanData_ok es]
    split
    · rename_i h
      simp only [h, ne_eq, not_true_eq_false, false_and, iff_false]
      split <;> simp
    · rename_i h1
      split
      · rename_i h2
        simp only [h2, ne_eq, not_true_eq_false, and_false, false_and, iff_false]
        split
        · simp
        · split <;> simp
      · rename_i h2
        simp [h1, h2]

theorem orphanRules_ok : ∀ ns, orphanRules ns = .ok () ↔
    ∀ n ∈ ns, ¬ (n.tag = "class" ∨ (combOf n.tag).isSome ∨ n.tag = "rule" ∨ n.tag = "action")
  | [] => by simp [orphanRules]
  | n :: ns => by
    rw [orphanRules, List.forall_mem_cons, ← orphanRules_ok ns]
    split
    · rename_i h
      have : (n.tag = "class" ∨ (combOf n.tag).isSome ∨ n.tag = "rule" ∨ n.tag = "action") := by
        rcases h with h | h
        · exact .inl h
        · exact .inr (.inl h)
      simp only [this, not_true_eq_false, false_and, iff_false]
      split <;> simp
    · rename_i h1
      split
      · rename_i h2
        simp only [h2, or_true, true_or, not_true_eq_false, false_and, iff_false]
        split <;> simp
      · rename_i h2
        split
        · rename_i h3
          simp only [h3, or_true, not_true_eq_false, false_and, iff_false]
          split <;> simp
        · rename_i h3
          have : ¬ (n.tag = "class" ∨ (combOf n.tag).isSome ∨ n.tag = "rule" ∨ n.tag = "action") := by
            rintro (h | h | h | h)
            · exact h1 (.inl h)
            · exact h1 (.inr h)
            · exact h2 h
            · exact h3 h
          simp only [this, not_false_eq_true, true_and]

theorem none_run (R : Reader) : ∀ (l : List Sect) (c : Rfc7940.Results), NoMeta l →
    (∃ e c', forEach (readSect R) { checks := c } l = ({ checks := c' }, .error e)) ∧ (∃ x ∈ l, Counts x) ∨
    forEach (readSect R) { checks := c } l = ({ checks := c }, .ok ()) ∧ ¬ ∃ x ∈ l, Counts x
  | [], c, _ => .inr ⟨rfl, by simp⟩
  | x :: l, c, h => by
    have hl : NoMeta l := fun ms hm => h ms (List.mem_cons_of_mem _ hm)
    have key : (∃ e, readSect R { checks := c } x = ({ checks := c }, .error e)) ∧ Counts x ∨
        readSect R { checks := c } x = ({ checks := c }, .ok ()) ∧ ¬ Counts x := by
      cases x with
      | metaE ms => exact absurd (List.mem_cons_self ..) (h ms)
      | data es =>
        simp only [readSect]
        have := orphanData_ok es
        cases ho : orphanData es with
        | error e =>
          rw [ho] at this
          refine .inl ⟨⟨e, rfl⟩, ?_⟩
          by_contra hc
          have : (Except.error e : Except Err Unit) = .ok () := this.2 (fun a ha => ⟨fun h => hc ⟨a, ha, .inl h⟩, fun h => hc ⟨a, ha, .inr h⟩⟩)
          cases this
        | ok u =>
          refine .inr ⟨rfl, ?_⟩
          rintro ⟨a, ha, h | h⟩
          · exact (this.1 ho a ha).1 h
          · exact (this.1 ho a ha).2 h
      | rules ns =>
        simp only [readSect]
        have := orphanRules_ok ns
        cases ho : orphanRules ns with
        | error e =>
          rw [ho] at this
          refine .inl ⟨⟨e, rfl⟩, ?_⟩
          by_contra hc
          have : (Except.error e : Except Err Unit) = .ok () := this.2 (fun a ha h => hc ⟨a, ha, h⟩)
          cases this
        | ok u =>
          refine .inr ⟨rfl, ?_⟩
          rintro ⟨a, ha, h⟩
          exact this.1 ho a ha h
      | other => exact .inr ⟨rfl, fun h => h⟩
    rw [forEach]
    rcases key with ⟨⟨e, h1⟩, h2⟩ | ⟨h1, h2⟩
    · rw [h1]
      exact .inl ⟨⟨e, c, rfl⟩, x, by simp, h2⟩
    · rw [h1]
      dsimp only
      rcases none_run R l c hl with ⟨⟨e, c', h3⟩, y, hy, h4⟩ | ⟨h3, h4⟩
      · exact .inl ⟨⟨e, c', h3⟩, y, by simp [hy], h4⟩
      · refine .inr ⟨h3, ?_⟩
        rintro ⟨y, hy, h5⟩
        rcases List.mem_cons.1 hy with rfl | hy
        · exact h2 h5
        · exact h4 ⟨y, hy, h5⟩

/-- Without a `meta` no LGR is made: if there is any code point, class, rule or action, reading fails, and
otherwise the result is `None`. -/
theorem no_meta (R : Reader) (c : Rfc7940.Results) (l : List Sect) (h : NoMeta l) :
    ((∃ x ∈ l, Counts x) → ∃ e, (readDoc R c l).2 = .error e) ∧
    ((¬ ∃ x ∈ l, Counts x) → (readDoc R c l).2 = .ok none) := by
  unfold readDoc
  rcases none_run R l c h with ⟨⟨e, c', h1⟩, h2⟩ | ⟨h1, h2⟩
  · rw [h1]
    exact ⟨fun _ => ⟨e, rfl⟩, fun h => absurd h2 h⟩
  · rw [h1]
    exact ⟨fun h => absurd h h2, fun _ => rfl⟩

/-! ## Classes of tags -/

/-- No name or reference of an element or of one inside is the name of a tag class. -/
def Outside (ns : List Node) : Prop :=
  ∀ m ∈ C149.belowAll ns, ∀ a t, (a = "name" ∨ a = "by-ref") → dget m.attrs a ≠ some (Cls.tagPrefix ++ t)

theorem isTag_iff {k : String} : isTag k = true ↔ ∃ t, k = Cls.tagPrefix ++ t := by
  unfold isTag
  constructor
  · intro h
    obtain ⟨t, ht⟩ := Option.isSome_iff_exists.1 h
    exact ⟨t, C146.tagOf_some ht⟩
  · rintro ⟨t, rfl⟩
    rw [C146.tagOf_prefix]
    rfl

/-- The same for one element. -/
def Out (n : Node) : Prop :=
  ∀ m ∈ n :: C149.below n, ∀ a k, (a = "name" ∨ a = "by-ref") → dget m.attrs a = some k → isTag k = false

theorem Outside.out {ns : List Node} (h : Outside ns) : ∀ n ∈ ns, Out n := by
  intro n hn m hm a k ha hk
  by_contra hc
  rw [Bool.not_eq_false] at hc
  obtain ⟨t, rfl⟩ := isTag_iff.1 hc
  exact h m (C149.mem_belowAll.2 ⟨n, hn, hm⟩) a t ha hk

theorem Out.child {n c : Node} (h : Out n) (hc : c ∈ n.children) : Out c :=
  fun m hm => h m (List.mem_cons_of_mem _ (C150.mem_below hc hm))

/-- References to classes which are no tag classes. -/
def Free (b : BaseCls) : Prop := ∀ k, b.byRef = some k → isTag k = false

theorem class_inv {attrs : XAttrs} {text : Option String} {ch : List Node} {k : Cls}
    (h : parseClass (.mk "class" attrs text ch) = .ok k) :
    ∃ b : BaseCls, k = .base b ∧ b.byRef = dget attrs "by-ref" ∧ b.name = dget attrs "name" ∧ b.fromTag = dget attrs "from-tag" := by
  rw [parseClass, if_pos rfl] at h
  split at h
  · cases h
  · rename_i b hb
    split at h
    · cases h
    · rename_i b1 h1
      split at h
      · cases h
      · rename_i b2 h2
        cases h
        have e0 := C103.mkBase_ok hb
        have e1 : { b1 with codepoints := [] } = { b with codepoints := [] } := by
          split at h1
          · exact (C103.addCps_lists h1).1
          · cases h1; rfl
        have e2 : { b2 with codepoints := [] } = { b with codepoints := [] } := (C103.addAll_lists h2).1.trans e1
        exact ⟨b2, rfl, (congrArg BaseCls.byRef e2).trans (congrArg BaseCls.byRef e0),
          (congrArg BaseCls.name e2).trans (congrArg BaseCls.name e0),
          (congrArg BaseCls.fromTag e2).trans (congrArg BaseCls.fromTag e0)⟩

theorem class_free : ∀ n k, parseClass n = .ok k → Out n →
    C42.Every Free (fun _ _ => True) k ∧ RuleState.clsName k = dget n.attrs "name" := by
  refine C103.node_ind ?_
  intro tag attrs text children ih k h hf
  by_cases ht : tag = "class"
  · subst ht
    obtain ⟨b, rfl, h1, h2, -⟩ := class_inv h
    refine ⟨?_, h2⟩
    intro r hr
    rw [h1] at hr
    exact hf _ (List.mem_cons_self ..) "by-ref" r (.inr rfl) hr
  · rw [parseClass, if_neg ht] at h
    split at h
    · cases h
    · rename_i op hop
      split at h
      · cases h
      · rename_i cs hcs
        cases h
        obtain ⟨r, hr, hfa⟩ := C103.parseClasses_forall hcs
        rw [List.nil_append] at hr
        subst hr
        refine ⟨⟨trivial, ?_⟩, rfl⟩
        have hf' : ∀ c ∈ children, Out c := fun c hc => hf.child hc
        clear hf hcs
        induction hfa with
        | nil => trivial
        | @cons n k ns ks h1 _ ih' =>
          exact ⟨(ih n (by simp) k h1 (hf' n (by simp))).1, ih' (fun m hm => ih m (by simp [hm]))
            (fun m hm => hf' m (by simp [hm]))⟩

theorem helper_free : ∀ (n : Node) (s s' : RState) (m : Matcher), parseHelper s n = (s', .ok (some m)) → Out n →
    C66.Parts (C42.Every Free (fun _ _ => True)) (fun _ => True) m := by
  refine C103.node_ind ?_
  intro tag attrs text children ih s s' m h hf
  obtain ⟨c, hc, hm⟩ := C103.made_of h
  have ih' : ∀ n ∈ children, ∀ s s' m, parseHelper s n = (s', .ok (some m)) →
      C66.Parts (C42.Every Free (fun _ _ => True)) (fun _ => True) m :=
    fun n hn s s' m h => ih n hn s s' m h (hf.child hn)
  cases hm with
  | anchor ht => trivial
  | start ht => trivial
  | fin ht => trivial
  | any ht => trivial
  | char cps ht hg => trivial
  | cls k ht hk => exact ⟨trivial, (class_free _ k hk hf).1⟩
  | choice _ ms ht hth => exact ⟨trivial, C150.helpers_parts ih' hth⟩
  | ahead _ ms ht hth => exact C150.helpers_parts ih' hth
  | behind _ ms ht hth => exact C150.helpers_parts ih' hth
  | rule _ ms ht hth => exact ⟨trivial, C150.helpers_parts ih' hth⟩

theorem rule_free {n : Node} {s t : RState} {m : Matcher} (h : parseRuleElem s n = (t, .ok m)) (hk : Out n) :
    (∃ i ms, m = .rule i (dget n.attrs "name") (dget n.attrs "by-ref") ms .none) ∧
    C66.Parts (C42.Every Free (fun _ _ => True)) (fun _ => True) m := by
  unfold parseRuleElem at h
  split at h
  · cases h
  · split at h
    · cases h
    · rename_i s' ms hms
      cases h
      exact ⟨⟨_, _, rfl⟩, trivial, C150.helpers_parts (fun c hc s s' m h => helper_free c s s' m h (hk.child hc)) hms⟩

/-- No class of an element is made of a tag. -/
def NoTag (n : Node) : Prop := ∀ m ∈ n :: C149.below n, dget m.attrs "from-tag" = none

/-- The same for several elements. -/
def Untagged (ns : List Node) : Prop := ∀ m ∈ C149.belowAll ns, dget m.attrs "from-tag" = none

theorem Untagged.out {ns : List Node} (h : Untagged ns) : ∀ n ∈ ns, NoTag n :=
  fun n hn m hm => h m (C149.mem_belowAll.2 ⟨n, hn, hm⟩)

theorem NoTag.child {n c : Node} (h : NoTag n) (hc : c ∈ n.children) : NoTag c :=
  fun m hm => h m (List.mem_cons_of_mem _ (C150.mem_below hc hm))

/-- Neither made of a tag nor a reference to a tag class. -/
def Plain (b : BaseCls) : Prop := b.fromTag = none ∧ Free b

theorem class_plain : ∀ n k, parseClass n = .ok k → Out n → NoTag n → C42.Every Plain (fun _ _ => True) k := by
  refine C103.node_ind ?_
  intro tag attrs text children ih k h hf hg
  by_cases ht : tag = "class"
  · subst ht
    obtain ⟨b, rfl, h1, h2, h3⟩ := class_inv h
    refine ⟨h3.trans (hg _ (List.mem_cons_self ..)), ?_⟩
    intro r hr
    rw [h1] at hr
    exact hf _ (List.mem_cons_self ..) "by-ref" r (.inr rfl) hr
  · rw [parseClass, if_neg ht] at h
    split at h
    · cases h
    · rename_i op hop
      split at h
      · cases h
      · rename_i cs hcs
        cases h
        obtain ⟨r, hr, hfa⟩ := C103.parseClasses_forall hcs
        rw [List.nil_append] at hr
        subst hr
        refine ⟨trivial, ?_⟩
        have hf' : ∀ c ∈ children, Out c := fun c hc => hf.child hc
        have hg' : ∀ c ∈ children, NoTag c := fun c hc => hg.child hc
        clear hf hcs hg
        induction hfa with
        | nil => trivial
        | @cons n k ns ks h1 _ ih' =>
          exact ⟨ih n (by simp) k h1 (hf' n (by simp)) (hg' n (by simp)), ih' (fun m hm => ih m (by simp [hm]))
            (fun m hm => hf' m (by simp [hm])) (fun m hm => hg' m (by simp [hm]))⟩

theorem helper_plain : ∀ (n : Node) (s s' : RState) (m : Matcher), parseHelper s n = (s', .ok (some m)) → Out n → NoTag n →
    C66.Parts (C42.Every Plain (fun _ _ => True)) (fun _ => True) m := by
  refine C103.node_ind ?_
  intro tag attrs text children ih s s' m h hf hg
  obtain ⟨c, hc, hm⟩ := C103.made_of h
  have ih' : ∀ n ∈ children, ∀ s s' m, parseHelper s n = (s', .ok (some m)) →
      C66.Parts (C42.Every Plain (fun _ _ => True)) (fun _ => True) m :=
    fun n hn s s' m h => ih n hn s s' m h (hf.child hn) (hg.child hn)
  cases hm with
  | anchor ht => trivial
  | start ht => trivial
  | fin ht => trivial
  | any ht => trivial
  | char cps ht hg => trivial
  | cls k ht hk => exact ⟨trivial, class_plain _ k hk hf hg⟩
  | choice _ ms ht hth => exact ⟨trivial, C150.helpers_parts ih' hth⟩
  | ahead _ ms ht hth => exact C150.helpers_parts ih' hth
  | behind _ ms ht hth => exact C150.helpers_parts ih' hth
  | rule _ ms ht hth => exact ⟨trivial, C150.helpers_parts ih' hth⟩

theorem rule_plain {n : Node} {s t : RState} {m : Matcher} (h : parseRuleElem s n = (t, .ok m)) (hk : Out n) (hg : NoTag n) :
    C66.Parts (C42.Every Plain (fun _ _ => True)) (fun _ => True) m := by
  unfold parseRuleElem at h
  split at h
  · cases h
  · split at h
    · cases h
    · rename_i s' ms hms
      cases h
      exact ⟨trivial, C150.helpers_parts (fun c hc s s' m h => helper_plain c s s' m h (hk.child hc) (hg.child hc)) hms⟩

/-- Two lookups agree but for tag classes. -/
def Agree (c c' : List (String × Cls)) : Prop := ∀ k, isTag k = false → dget c k = dget c' k

theorem validate_agree {c c' : List (String × Cls)} (h : Agree c c') : ∀ k, C42.Every Free (fun _ _ => True) k →
    ∀ top, Cls.validate c top k = Cls.validate c' top k := by
  refine C42.cls_ind ?_ ?_
  · intro b hb top
    have hb : Free b := hb
    simp only [Cls.validate]
    cases hr : b.byRef with
    | none => simp
    | some n => simp [h n (hb n hr)]
  · intro n op cs ih hk top
    rw [C42.Every, C42.everyL_iff] at hk
    have hall : ∀ l : List Cls, (∀ d ∈ l, d ∈ cs) → Cls.validateAll c l = Cls.validateAll c' l := by
      intro l
      induction l with
      | nil => intro _; simp [Cls.validateAll]
      | cons d l ihl =>
        intro hl
        simp only [Cls.validateAll]
        rw [ih d (hl d (by simp)) (hk.2 d (hl d (by simp))) false, ihl (fun e he => hl e (by simp [he]))]
    simp only [Cls.validate]
    rw [hall cs (fun _ h => h)]

theorem validate_agreeM {rl : List (String × Matcher)} {c c' : List (String × Cls)} (h : Agree c c') : ∀ m,
    C66.Parts (C42.Every Free (fun _ _ => True)) (fun _ => True) m →
    ∀ top, Matcher.validate ⟨rl, c⟩ top m = Matcher.validate ⟨rl, c'⟩ top m := by
  have hall : ∀ l : List Matcher, (∀ d ∈ l, C66.Parts (C42.Every Free (fun _ _ => True)) (fun _ => True) d →
      ∀ top, Matcher.validate ⟨rl, c⟩ top d = Matcher.validate ⟨rl, c'⟩ top d) →
      C66.PartsL (C42.Every Free (fun _ _ => True)) (fun _ => True) l →
      Matcher.validateAll ⟨rl, c⟩ l = Matcher.validateAll ⟨rl, c'⟩ l := by
    intro l
    induction l with
    | nil => intro _ _; simp [Matcher.validateAll]
    | cons d l ihl =>
      intro hl hp
      simp only [Matcher.validateAll]
      rw [hl d (by simp) hp.1 false, ihl (fun e he => hl e (by simp [he])) hp.2]
  refine C63.matcher_ind ?_ ?_ ?_ ?_ ?_ ?_ ?_ ?_ ?_ ?_
  · intro _ top; simp [Matcher.validate]
  · intro _ top; simp [Matcher.validate]
  · intro _ top; simp [Matcher.validate]
  · intro _ _ top; simp [Matcher.validate]
  · intro _ _ _ top; simp [Matcher.validate]
  · intro ms ih hp top
    simp only [Matcher.validate]
    exact hall ms ih hp
  · intro ms ih hp top
    simp only [Matcher.validate]
    exact hall ms ih hp
  · intro ms c ih hp top
    simp only [Matcher.validate]
    exact hall ms ih hp.2
  · intro k c hp top
    simp only [Matcher.validate]
    exact validate_agree h k hp.2 false
  · intro id nm br ms c ih hp top
    simp only [Matcher.validate]
    rw [hall ms ih hp.2]

/-! ## Patterns without tag classes -/

/-- No rule and no class, but for those of tags, needs a tag. -/
def Clean (rl : List (String × Matcher)) (c : List (String × Cls)) : Prop :=
  (∀ k x, isTag k = false → dget c k = some x → C42.Every Plain (fun _ _ => True) x) ∧
  ∀ n m, dget rl n = some m → C66.Parts (C42.Every Plain (fun _ _ => True)) (fun _ => True) m

theorem getSet_agree {db : String → Except Err CpSet} {rl : List (String × Matcher)} {c c' : List (String × Cls)} (ha : Agree c c')
    (hc : Clean rl c') : ∀ fuel k, C42.Every Plain (fun _ _ => True) k → Cls.getSet db c fuel k = Cls.getSet db c' fuel k := by
  intro fuel
  induction fuel with
  | zero => intro k _; simp [Cls.getSet]
  | succ fuel ih =>
    intro k hk
    cases k with
    | base b =>
      have hk : Plain b := hk
      obtain ⟨h1, h2⟩ := hk
      rw [Cls.getSet, Cls.getSet, h1]
      cases hr : b.byRef with
      | none => rfl
      | some n =>
        have hn := h2 n hr
        dsimp only
        rw [ha n hn]
        cases hd : dget c' n with
        | none => rfl
        | some x => exact ih x (hc.1 n x hn hd)
    | comb n op cs =>
      rw [C42.Every, C42.everyL_iff] at hk
      have hall : ∀ l : List Cls, (∀ d ∈ l, d ∈ cs) → l.mapM (Cls.getSet db c fuel) = l.mapM (Cls.getSet db c' fuel) := by
        intro l
        induction l with
        | nil => intro _; rfl
        | cons d l ihl =>
          intro hl
          rw [List.mapM_cons, List.mapM_cons, ih d (hk.2 d (hl d (by simp))), ihl (fun e he => hl e (by simp [he]))]
      cases op with
      | union => simp only [Cls.getSet, hall cs (fun _ h => h)]
      | complement =>
        cases cs with
        | nil => simp [Cls.getSet]
        | cons d cs => simp only [Cls.getSet, ih d (hk.2 d (by simp))]
      | _ =>
        cases cs with
        | nil => simp [Cls.getSet]
        | cons d cs =>
          cases cs with
          | nil => simp only [Cls.getSet, ih d (hk.2 d (by simp))]
          | cons e cs => simp only [Cls.getSet, ih d (hk.2 d (by simp)), ih e (hk.2 e (by simp))]

theorem pattern_agree {db : String → Except Err CpSet} {rl : List (String × Matcher)} {c c' : List (String × Cls)} (ha : Agree c c')
    (hc : Clean rl c') : ∀ fuel beh m κ, C66.Parts (C42.Every Plain (fun _ _ => True)) (fun _ => True) m →
    Matcher.patternC db ⟨rl, c⟩ fuel beh m κ = Matcher.patternC db ⟨rl, c'⟩ fuel beh m κ := by
  intro fuel
  induction fuel with
  | zero => intro beh m κ _; simp [Matcher.patternC]
  | succ fuel ih =>
    have hall : ∀ (beh : Bool) (ms : List Matcher) κ, C66.PartsL (C42.Every Plain (fun _ _ => True)) (fun _ => True) ms →
        Matcher.mapC (Matcher.patternC db ⟨rl, c⟩ fuel beh) ms κ = Matcher.mapC (Matcher.patternC db ⟨rl, c'⟩ fuel beh) ms κ := by
      intro beh ms
      induction ms with
      | nil => intro κ _; rfl
      | cons m ms ihm =>
        intro κ hm
        simp only [Matcher.mapC, ih beh m κ hm.1]
        rcases Matcher.patternC db ⟨rl, c'⟩ fuel beh m κ with ⟨κ', e | r⟩
        · rfl
        · dsimp only
          rw [ihm κ' hm.2]
    intro beh m κ hm
    cases m with
    | cls k cnt =>
      simp only [Matcher.patternC, Matcher.classPattern]
      rw [getSet_agree ha hc fuel k hm.2]
    | ahead ms => simp only [Matcher.patternC, hall false ms κ hm]
    | behind ms => simp only [Matcher.patternC, hall true ms κ hm]
    | choice ms cnt => simp only [Matcher.patternC, hall beh ms κ hm.2]
    | rule i nm br ms cnt =>
      simp only [Matcher.patternC, hall beh ms κ hm.2]
      cases dget κ (i, beh) with
      | some r => rfl
      | none =>
        cases br with
        | none => rfl
        | some n =>
          dsimp only
          cases hd : dget rl n with
          | none => rfl
          | some m => dsimp only; rw [ih beh m κ (hc.2 n m hd)]
    | _ => simp only [Matcher.patternC]

theorem Clean.agree {rl : List (String × Matcher)} {c c' : List (String × Cls)} (ha : Agree c c') (h : Clean rl c') : Clean rl c :=
  ⟨fun k x hk hx => h.1 k x hk ((ha k hk).symm.trans hx), h.2⟩

theorem Clean.cls {rl : List (String × Matcher)} {c : List (String × Cls)} (h : Clean rl c) (a : String) {x : Cls}
    (hx : C42.Every Plain (fun _ _ => True) x) : Clean rl (dset c a x) := by
  refine ⟨fun k y hk hy => ?_, h.2⟩
  rw [dget_dset] at hy
  split at hy
  · cases hy; exact hx
  · exact h.1 k y hk hy

theorem Clean.rule {rl : List (String × Matcher)} {c : List (String × Cls)} (h : Clean rl c) (a : String) {x : Matcher}
    (hx : C66.Parts (C42.Every Plain (fun _ _ => True)) (fun _ => True) x) : Clean (dset rl a x) c := by
  refine ⟨h.1, fun k y hy => ?_⟩
  rw [dget_dset] at hy
  split at hy
  · cases hy; exact hx
  · exact h.2 k y hy

/-! ## Rules with and without tag classes -/

/-- Rules with other classes. -/
def setCls (r : Rules) (c : List (String × Cls)) : Rules :=
  { r with rs := { r.rs with lk := { r.rs.lk with classes := c } } }

/-- What a class or rule changes: `c` is the lookup before, `d` after. -/
def KeepsTags (c d : List (String × Cls)) : Prop := ∀ k, isTag k = true → dget d k = dget c k

theorem KeepsTags.trans {a b c : List (String × Cls)} (h : KeepsTags a b) (h' : KeepsTags b c) : KeepsTags a c :=
  fun k hk => (h' k hk).trans (h k hk)

theorem agree_dset {c c' : List (String × Cls)} (h : Agree c c') (n : String) (k : Cls) : Agree (dset c n k) (dset c' n k) := by
  intro x hx
  rw [dget_dset, dget_dset, h x hx]

theorem keeps_dset {c : List (String × Cls)} {n : String} (hn : isTag n = false) (k : Cls) : KeepsTags c (dset c n k) := by
  intro x hx
  rw [dget_dset, if_neg]
  rintro rfl
  rw [hn] at hx
  cases hx

/-- Both are read, with the same effect, or none. -/
def Together (P : Parser) (r : Rules) (c c' : List (String × Cls)) (t t' : RState) (ns : List Node) : Prop :=
  ((∃ e, (parseRules P (setCls r c, t) ns).2 = .error e) ∧ ∃ e, (parseRules P (setCls r c', t') ns).2 = .error e) ∨
  ∃ r1 c1 c1' t1 t1', parseRules P (setCls r c, t) ns = ((setCls r1 c1, t1), .ok ()) ∧
    parseRules P (setCls r c', t') ns = ((setCls r1 c1', t1'), .ok ()) ∧ Agree c1 c1' ∧ KeepsTags c c1 ∧ KeepsTags c' c1' ∧
    t1.nextId = t1'.nextId ∧ (P.udb = false ∨ Clean r1.rs.lk.rules c1')

theorem ruleElem_bad (n : Node) (t t' : RState) (h : t.nextId = t'.nextId) :
    (parseRuleElem t n).2 = (parseRuleElem t' n).2 ∧ (parseRuleElem t n).1.nextId = (parseRuleElem t' n).1.nextId := by
  obtain ⟨i, b⟩ := t
  obtain ⟨j, b'⟩ := t'
  cases h
  unfold parseRuleElem
  split
  · exact ⟨rfl, rfl⟩
  · obtain ⟨j, w, o, hh⟩ := C101.helpers_bad n.children (dget n.attrs "by-ref").isSome (i + 1)
    dsimp only
    rw [hh b, hh b']
    cases o <;> exact ⟨rfl, rfl⟩

/-- A rule is added, with some cache of patterns, or its pattern cannot be calculated. -/
theorem precalc_agree {P : Parser} (r : Rules) {c c' : List (String × Cls)} (ha : Agree c c') {m : Matcher}
    (hu : P.udb = false ∨ C66.Parts (C42.Every Plain (fun _ _ => True)) (fun _ => True) m ∧ Clean r.rs.lk.rules c') :
    (∃ κ e, RuleState.parseRule P.db P.fuel P.udb (setCls r c).rs m P.force = ({ (setCls r c).rs with cache := κ }, .error e) ∧
      RuleState.parseRule P.db P.fuel P.udb (setCls r c').rs m P.force = ({ (setCls r c').rs with cache := κ }, .error e)) ∨
    ∃ κ, RuleState.parseRule P.db P.fuel P.udb (setCls r c).rs m P.force = RuleState.addRule { (setCls r c).rs with cache := κ } m P.force ∧
      RuleState.parseRule P.db P.fuel P.udb (setCls r c').rs m P.force = RuleState.addRule { (setCls r c').rs with cache := κ } m P.force := by
  unfold RuleState.parseRule
  cases hP : P.udb with
  | false => exact .inr ⟨r.rs.cache, rfl, rfl⟩
  | true =>
    rw [hP] at hu
    rcases hu with hu | ⟨hm, hc⟩
    · cases hu
    · rw [if_pos rfl, if_pos rfl]
      have hp : ∀ κ, Matcher.precalculate P.db (setCls r c).rs.lk P.fuel m κ = Matcher.precalculate P.db (setCls r c').rs.lk P.fuel m κ := by
        intro κ
        unfold Matcher.precalculate
        simp only [setCls]
        rw [pattern_agree ha hc P.fuel true m κ hm]
        rcases Matcher.patternC P.db ⟨r.rs.lk.rules, c'⟩ P.fuel true m κ with ⟨κ', e | u⟩
        · rfl
        · dsimp only
          rw [pattern_agree ha hc P.fuel false m κ' hm]
      rw [hp]
      have hk : (setCls r c).rs.cache = (setCls r c').rs.cache := rfl
      rw [hk]
      rcases Matcher.precalculate P.db (setCls r c').rs.lk P.fuel m (setCls r c').rs.cache with ⟨κ, e | u⟩
      · exact .inl ⟨κ, e, rfl, rfl⟩
      · exact .inr ⟨κ, rfl, rfl⟩

theorem item_agree {P : Parser} (r : Rules) {c c' : List (String × Cls)} (ha : Agree c c') {t t' : RState}
    (ht : t.nextId = t'.nextId) {n : Node} (hn : Out n) (hu : P.udb = false ∨ NoTag n ∧ Clean r.rs.lk.rules c') :
    ((∃ e, (parseItem P (setCls r c, t) n).2 = .error e) ∧ ∃ e, (parseItem P (setCls r c', t') n).2 = .error e) ∨
    ∃ r1 c1 c1' t1 t1', parseItem P (setCls r c, t) n = ((setCls r1 c1, t1), .ok ()) ∧
      parseItem P (setCls r c', t') n = ((setCls r1 c1', t1'), .ok ()) ∧ Agree c1 c1' ∧ KeepsTags c c1 ∧ KeepsTags c' c1' ∧
      t1.nextId = t1'.nextId ∧ (P.udb = false ∨ Clean r1.rs.lk.rules c1') := by
  unfold parseItem
  split
  · cases hk : parseClass n with
    | error e => exact .inl ⟨⟨e, rfl⟩, e, rfl⟩
    | ok k =>
      dsimp only
      obtain ⟨hf, hnm⟩ := class_free n k hk hn
      unfold RuleState.addClass
      have hv := validate_agree ha k hf true
      simp only [setCls]
      rw [hv]
      have fin : ∀ (o : Option String), RuleState.clsName k = o → ∃ (r1 : Rules) (c1 c1' : List (String × Cls)) (t1 t1' : RState),
          (match (match o with
              | none => (({ lk := { rules := r.rs.lk.rules, classes := c }, cache := r.rs.cache } : RuleState), (.ok () : Except Err Unit))
              | some n => ({ lk := { rules := r.rs.lk.rules, classes := dset c n k }, cache := r.rs.cache }, .ok ())) with
            | (_, .error e) => ((setCls r c, t), (.error e : Except Err Unit))
            | (rs, .ok ()) => (({ (setCls r c) with rs := rs, clsNames := (setCls r c).clsNames ++ [o], clsXml := (setCls r c).clsXml ++ [n] }, t), .ok ())) =
              ((setCls r1 c1, t1), .ok ()) ∧
          (match (match o with
              | none => (({ lk := { rules := r.rs.lk.rules, classes := c' }, cache := r.rs.cache } : RuleState), (.ok () : Except Err Unit))
              | some n => ({ lk := { rules := r.rs.lk.rules, classes := dset c' n k }, cache := r.rs.cache }, .ok ())) with
            | (_, .error e) => ((setCls r c', t'), (.error e : Except Err Unit))
            | (rs, .ok ()) => (({ (setCls r c') with rs := rs, clsNames := (setCls r c').clsNames ++ [o], clsXml := (setCls r c').clsXml ++ [n] }, t'), .ok ())) =
              ((setCls r1 c1', t1'), .ok ()) ∧ Agree c1 c1' ∧ KeepsTags c c1 ∧ KeepsTags c' c1' ∧ t1.nextId = t1'.nextId ∧
              (P.udb = false ∨ Clean r1.rs.lk.rules c1') := by
        intro o ho
        cases o with
        | none =>
          exact ⟨{ r with clsNames := r.clsNames ++ [none], clsXml := r.clsXml ++ [n] }, c, c', t, t', rfl, rfl, ha,
            fun _ _ => rfl, fun _ _ => rfl, ht, hu.imp id (·.2)⟩
        | some a =>
          have hna : isTag a = false := hn n (List.mem_cons_self ..) "name" a (.inl rfl) (hnm.symm.trans ho)
          exact ⟨{ r with clsNames := r.clsNames ++ [some a], clsXml := r.clsXml ++ [n] }, dset c a k, dset c' a k, t, t', rfl, rfl,
            agree_dset ha a k, keeps_dset hna k, keeps_dset hna k, ht,
            hu.imp id fun h => h.2.cls a (class_plain n k hk hn h.1)⟩
      have := fin _ rfl
      rcases Cls.validate c' true k with e | u <;> cases P.force
      · exact .inl ⟨⟨e, rfl⟩, e, rfl⟩
      · exact .inr this
      · exact .inr this
      · exact .inr this
  · split
    · dsimp only
      obtain ⟨h1, h2⟩ := ruleElem_bad n t t' ht
      rcases hp : parseRuleElem t n with ⟨t2, e | m⟩
      · rw [hp] at h1
        rcases hp' : parseRuleElem t' n with ⟨t2', e' | m'⟩
        · exact .inl ⟨⟨e, rfl⟩, e', rfl⟩
        · rw [hp'] at h1; cases h1
      · rw [hp] at h1 h2
        rcases hp' : parseRuleElem t' n with ⟨t2', e' | m'⟩
        · rw [hp'] at h1; cases h1
        · rw [hp'] at h1 h2
          cases h1
          dsimp only at h2 ⊢
          obtain ⟨⟨i, ms, rfl⟩, hf⟩ := rule_free hp hn
          have hv := validate_agreeM (rl := r.rs.lk.rules) ha _ hf true
          rcases precalc_agree (P := P) r ha (hu.imp id fun h => ⟨rule_plain hp hn h.1, h.2⟩) with ⟨κ, e, p1, p2⟩ | ⟨κ, p1, p2⟩
          · left
            rw [p1, p2]
            exact ⟨⟨e, rfl⟩, e, rfl⟩
          rw [p1, p2]
          have hpl : P.udb = false ∨ C66.Parts (C42.Every Plain (fun _ _ => True)) (fun _ => True)
            (.rule i (dget n.attrs "name") (dget n.attrs "by-ref") ms .none) ∧ Clean r.rs.lk.rules c' :=
            hu.imp id fun h => ⟨rule_plain hp hn h.1, h.2⟩
          clear p1 p2 hp hp' hu
          simp only [RuleState.addRule, setCls]
          rw [hv]
          generalize hnm : dget n.attrs "name" = o at *
          have fin : ∃ (r1 : Rules) (c1 c1' : List (String × Cls)) (t1 t1' : RState),
              (match (match o with
                  | none => (({ lk := { rules := r.rs.lk.rules, classes := c }, cache := κ } : RuleState), (.ok () : Except Err Unit))
                  | some a => ({ lk := { rules := dset r.rs.lk.rules a (.rule i o (dget n.attrs "by-ref") ms .none), classes := c }, cache := κ }, .ok ())) with
                | (rs, .error e) => (({ (setCls r c) with rs := rs }, t2), (.error e : Except Err Unit))
                | (rs, .ok ()) => (({ (setCls r c) with rs := rs, ruleNames := (setCls r c).ruleNames ++ [o], rulesXml := (setCls r c).rulesXml ++ [n] }, t2), .ok ())) =
                  ((setCls r1 c1, t1), .ok ()) ∧
              (match (match o with
                  | none => (({ lk := { rules := r.rs.lk.rules, classes := c' }, cache := κ } : RuleState), (.ok () : Except Err Unit))
                  | some a => ({ lk := { rules := dset r.rs.lk.rules a (.rule i o (dget n.attrs "by-ref") ms .none), classes := c' }, cache := κ }, .ok ())) with
                | (rs, .error e) => (({ (setCls r c') with rs := rs }, t2'), (.error e : Except Err Unit))
                | (rs, .ok ()) => (({ (setCls r c') with rs := rs, ruleNames := (setCls r c').ruleNames ++ [o], rulesXml := (setCls r c').rulesXml ++ [n] }, t2'), .ok ())) =
                  ((setCls r1 c1', t1'), .ok ()) ∧ Agree c1 c1' ∧ KeepsTags c c1 ∧ KeepsTags c' c1' ∧ t1.nextId = t1'.nextId ∧
              (P.udb = false ∨ Clean r1.rs.lk.rules c1') := by
            cases o with
            | none =>
              exact ⟨{ r with ruleNames := r.ruleNames ++ [none], rulesXml := r.rulesXml ++ [n], rs := { r.rs with cache := κ } },
                c, c', t2, t2', rfl, rfl, ha, fun _ _ => rfl, fun _ _ => rfl, h2, hpl.imp id (·.2)⟩
            | some a =>
              exact ⟨{ r with ruleNames := r.ruleNames ++ [some a], rulesXml := r.rulesXml ++ [n],
                              rs := { r.rs with cache := κ, lk := { r.rs.lk with rules := dset r.rs.lk.rules a (.rule i (some a) (dget n.attrs "by-ref") ms .none) } } },
                c, c', t2, t2', rfl, rfl, ha, fun _ _ => rfl, fun _ _ => rfl, h2, hpl.imp id fun h => h.2.rule a h.1⟩
          rcases Matcher.validate ⟨r.rs.lk.rules, c'⟩ true (.rule i o (dget n.attrs "by-ref") ms .none) with e | u <;> cases P.force
          · exact .inl ⟨⟨e, rfl⟩, e, rfl⟩
          · exact .inr fin
          · exact .inr fin
          · exact .inr fin
    · split
      · cases parseAction n with
        | error e => exact .inl ⟨⟨e, rfl⟩, e, rfl⟩
        | ok a =>
          exact .inr ⟨{ r with actions := r.actions ++ [a], actionsXml := r.actionsXml ++ [n] }, c, c', t, t', rfl, rfl, ha,
            fun _ _ => rfl, fun _ _ => rfl, ht, hu.imp id (·.2)⟩
      · exact .inr ⟨r, c, c', _, _, rfl, rfl, ha, fun _ _ => rfl, fun _ _ => rfl, ht, hu.imp id (·.2)⟩

theorem rules_agree {P : Parser} : ∀ (ns : List Node) (r : Rules) {c c' : List (String × Cls)},
    Agree c c' → ∀ {t t' : RState}, t.nextId = t'.nextId → (∀ n ∈ ns, Out n) →
    (P.udb = false ∨ (∀ n ∈ ns, NoTag n) ∧ Clean r.rs.lk.rules c') → Together P r c c' t t' ns
  | [], r, c, c', ha, t, t', ht, _, hu => .inr ⟨r, c, c', t, t', rfl, rfl, ha, fun _ _ => rfl, fun _ _ => rfl, ht, hu.imp id (·.2)⟩
  | n :: ns, r, c, c', ha, t, t', ht, hn, hu => by
    unfold Together
    simp only [parseRules, forEach]
    rcases item_agree r ha ht (hn n (by simp)) (hu.imp id fun h => ⟨h.1 n (by simp), h.2⟩) with
      ⟨⟨e, h1⟩, e', h2⟩ | ⟨r1, c1, c1', t1, t1', h1, h2, h3, h4, h5, h6, h7⟩
    · left
      generalize parseItem P (setCls r c, t) n = u at h1
      generalize parseItem P (setCls r c', t') n = v at h2
      obtain ⟨u1, u2⟩ := u
      obtain ⟨v1, v2⟩ := v
      cases h1
      cases h2
      exact ⟨⟨e, rfl⟩, e', rfl⟩
    · rw [h1, h2]
      dsimp only
      rcases rules_agree (P := P) ns r1 h3 h6 (fun m hm => hn m (by simp [hm]))
        (by
          rcases hu with hu | hu
          · exact .inl hu
          · exact h7.imp id fun h => ⟨fun m hm => hu.1 m (by simp [hm]), h⟩) with h | ⟨r2, c2, c2', t2, t2', g1, g2, g3, g4, g5, g6, g7⟩
      · exact .inl h
      · exact .inr ⟨r2, c2, c2', t2, t2', g1, g2, g3, h4.trans g4, h5.trans g5, g6, g7⟩

/-! ## Any order -/

/-- The tag classes are those of the LGR. -/
def Tagged (c : List (String × Cls)) (g : LGR) : Prop := ∀ k, isTag k = true → dget c k = dget (tagClasses g) k

theorem tagClasses_tag (g : LGR) {k : String} (hk : isTag k = false) : dget (tagClasses g) k = none := by
  cases h : dget (tagClasses g) k with
  | none => rfl
  | some v =>
    have := mem_of_dget h
    unfold tagClasses at this
    obtain ⟨p, -, hp⟩ := List.mem_map.1 this
    have : k = Cls.tagPrefix ++ p.1 := (congrArg Prod.fst hp).symm
    rw [isTag_iff.2 ⟨p.1, this⟩] at hk
    cases hk

theorem dget_untagged (l : List (String × Cls)) (k : String) :
    dget (l.filter (fun p => !isTag p.1)) k = if isTag k then none else dget l k := by
  induction l with
  | nil => simp [dget]
  | cons p l ih =>
    rw [List.filter_cons]
    by_cases hp : p.1 = k
    · subst hp
      cases hb : isTag p.1 with
      | true => simp [ih, hb]
      | false => simp [dget, hb]
    · cases hb : isTag p.1 with
      | true => simp [ih, dget, hp]
      | false =>
        simp only [Bool.not_false, if_true]
        rw [dget, if_neg hp, ih, dget, if_neg hp]

theorem withTags_agree (c : List (String × Cls)) (g : LGR) :
    Agree (c.filter (fun p => !isTag p.1) ++ tagClasses g) c ∧ Tagged (c.filter (fun p => !isTag p.1) ++ tagClasses g) g := by
  constructor
  · intro k hk
    rw [C34.dget_append, dget_untagged, hk, tagClasses_tag g hk]
    cases dget c k <;> simp
  · intro k hk
    rw [C34.dget_append, dget_untagged, hk]
    simp

theorem run_any {R : Reader} : ∀ (l : List Sect), NoMeta l → (∀ n ∈ allRules l, Out n) →
    ∀ (g : Loaded) (r : Rules) (c c' : List (String × Cls)) (t' : RState) (ck : Rfc7940.Results),
    g.rules = setCls r c → Agree c c' → g.ids = t'.nextId → Tagged c g.lgr →
    (R.db = none ∨ (∀ n ∈ allRules l, NoTag n) ∧ Clean r.rs.lk.rules c') →
    ((∃ e, (forEach (readSect R) ⟨ck, some g⟩ l).2 = .error e) ∧
      ((∃ e, (lgrOf R.db R.force g.lgr (allData l)).2 = .error e) ∨ ∃ e, (parseRules R.parser (setCls r c', t') (allRules l)).2 = .error e)) ∨
    ∃ L r1 c1 c1' t1' ck1,
      forEach (readSect R) ⟨ck, some g⟩ l = (⟨ck1, some { md := g.md, lgr := L, rules := setCls r1 c1, ids := RState.nextId t1' }⟩, .ok ()) ∧
      lgrOf R.db R.force g.lgr (allData l) = (L, .ok ()) ∧
      parseRules R.parser (setCls r c', t') (allRules l) = ((setCls r1 c1', t1'), .ok ()) ∧
      Agree c1 c1' ∧ KeepsTags c' c1' ∧ Tagged c1 L
  | [], _, _, g, r, c, c', t', ck, hg, ha, hi, htg, hdb => by
    refine .inr ⟨g.lgr, r, c, c', t', ck, ?_, rfl, rfl, ha, fun _ _ => rfl, htg⟩
    obtain ⟨md, lg, ru, ids⟩ := g
    dsimp only at hg hi
    rw [hg, hi]
    rfl
  | x :: l, hm, ho, g, r, c, c', t', ck, hg, ha, hi, htg, hdb => by
    have hml : NoMeta l := fun ms h => hm ms (List.mem_cons_of_mem _ h)
    cases x with
    | metaE ms => exact absurd (List.mem_cons_self ..) (hm ms)
    | other =>
      exact run_any l hml ho g r c c' t' ck hg ha hi htg hdb
    | data es =>
      have a1 : allData (.data es :: l) = es ++ allData l := rfl
      have a2 : allRules (.data es :: l) = allRules l := rfl
      rw [a1, a2, lgrOf_append]
      rw [forEach]
      simp only [readSect]
      have h := parseData_lgr R.db R.force { lgr := g.lgr, checks := ck } es
      dsimp only at h
      generalize parseData R.db R.force { lgr := g.lgr, checks := ck } es = u at h
      generalize lgrOf R.db R.force g.lgr es = v at h
      obtain ⟨p, o⟩ := u
      obtain ⟨q, o'⟩ := v
      obtain ⟨h1, h2⟩ := h
      dsimp only at h1 h2
      subst h2
      cases o with
      | error e => exact .inl ⟨⟨e, rfl⟩, .inl ⟨e, rfl⟩⟩
      | ok u =>
        dsimp only
        rw [← h1]
        obtain ⟨w1, w2⟩ := withTags_agree c p.lgr
        exact run_any l hml ho { g with lgr := p.lgr, rules := withTags p.lgr g.rules } r _ c' t' p.checks
          (by rw [hg]; rfl) (fun k hk => (w1 k hk).trans (ha k hk)) hi w2 hdb
    | rules ns =>
      have a1 : allData (.rules ns :: l) = allData l := rfl
      have a2 : allRules (.rules ns :: l) = ns ++ allRules l := rfl
      rw [a1, a2]
      have hu : R.parser.udb = false ∨ (∀ n ∈ ns, NoTag n) ∧ Clean r.rs.lk.rules c' := by
        rcases hdb with h | h
        · exact .inl (by simp [Reader.parser, h])
        · exact .inr ⟨fun n hn => h.1 n (by rw [a2]; exact List.mem_append_left _ hn), h.2⟩
      have hns : ∀ n ∈ ns, Out n := fun n hn => ho n (by rw [a2]; exact List.mem_append_left _ hn)
      have hnl : ∀ n ∈ allRules l, Out n := fun n hn => ho n (by rw [a2]; exact List.mem_append_right _ hn)
      rw [forEach]
      simp only [readSect, hg]
      have e0 : parseRules R.parser (setCls r c', t') (ns ++ allRules l) =
        match parseRules R.parser (setCls r c', t') ns with
        | (s', .ok ()) => parseRules R.parser s' (allRules l)
        | (s', .error e) => (s', .error e) := by
        unfold parseRules
        rw [forEach_app']
        rcases forEach (parseItem R.parser) (setCls r c', t') ns with ⟨s', e | u⟩ <;> rfl
      rw [e0]
      rcases rules_agree ns r ha (t := { nextId := g.ids }) (t' := t') hi hns hu with
        ⟨⟨e, h1⟩, e', h2⟩ | ⟨r1, c1, c1', t1, t1', h1, h2, h3, h4, h5, h6, h7⟩
      · left
        generalize parseRules R.parser (setCls r c, { nextId := g.ids }) ns = u at h1
        generalize parseRules R.parser (setCls r c', t') ns = v at h2
        obtain ⟨⟨u1, u3⟩, u2⟩ := u
        obtain ⟨v1, v2⟩ := v
        cases h1
        cases h2
        exact ⟨⟨e, rfl⟩, .inr ⟨e', rfl⟩⟩
      · rw [h1, h2]
        dsimp only
        have hdb' : R.db = none ∨ (∀ n ∈ allRules l, NoTag n) ∧ Clean r1.rs.lk.rules c1' := by
          rcases hdb with h | h
          · exact .inl h
          · rcases h7 with h7 | h7
            · exact .inl (by simpa [Reader.parser] using h7)
            · exact .inr ⟨fun n hn => h.1 n (by rw [a2]; exact List.mem_append_right _ hn), h7⟩
        rcases run_any l hml hnl { g with rules := setCls r1 c1, ids := t1.nextId } r1 c1 c1' t1' (noteBad t1.bad ck)
            rfl h3 h6 (fun k hk => (h4 k hk).trans (htg k hk)) hdb' with h | ⟨L, r2, c2, c2', t2', ck2, g1, g2, g3, g4, g5, g6⟩
        · exact .inl h
        · exact .inr ⟨L, r2, c2, c2', t2', ck2, g1, g2, g3, g4, h5.trans g5, g6⟩

/-- Two LGRs which are the same but for the order in which the classes are kept. -/
structure Same (g g' : Loaded) : Prop where
  md : g.md = g'.md
  lgr : g.lgr = g'.lgr
  ids : g.ids = g'.ids
  classes : ∀ k, dget g.rules.rs.lk.classes k = dget g'.rules.rs.lk.classes k
  rest : g.rules = setCls g'.rules g.rules.rs.lk.classes

/-- Without a Unicode database, or without classes made of tags, the `data` and `rules` sections after a `meta` may be in any order and number:
the document is read exactly when the one with all their elements in one section of each kind is, and the
LGR is the same. -/
theorem any_order_partial (R : Reader) (c : Rfc7940.Results) (ms : List MElem) (l : List Sect)
    (hdb : R.db = none ∨ Untagged (allRules l)) (hm : NoMeta l) (ho : Outside (allRules l)) :
    ((∃ g, (readDoc R c (.metaE ms :: l)).2 = .ok (some g)) ↔
      ∃ g, (parseDoc R c ⟨some ms, allData l, some (allRules l)⟩).2 = .ok (some g)) ∧
    ∀ g g', (readDoc R c (.metaE ms :: l)).2 = .ok (some g) →
      (parseDoc R c ⟨some ms, allData l, some (allRules l)⟩).2 = .ok (some g') → Same g g' := by
  unfold readDoc parseDoc
  rw [forEach]
  simp only [readSect]
  rcases parseMeta R.x R.force c ms with ⟨m, e | u⟩
  · simp
  · dsimp only
    have hd := parseData_lgr R.db R.force { lgr := newLgr R m.md, checks := m.checks } (allData l)
    dsimp only at hd
    have hag : Agree [] (tagClasses (lgrOf R.db R.force (newLgr R m.md) (allData l)).1) :=
      fun k hk => (tagClasses_tag _ hk).symm
    have hrun := run_any l hm ho.out { md := m.md, lgr := newLgr R m.md, rules := {} } {} []
      (tagClasses (lgrOf R.db R.force (newLgr R m.md) (allData l)).1) {} m.checks rfl hag rfl (fun k _ => rfl)
      (hdb.imp id fun h => ⟨h.out, fun k x hk hx => (by rw [tagClasses_tag _ hk] at hx; cases hx), fun n m h => by cases h⟩)
    dsimp only at hrun
    generalize hp : parseData R.db R.force { lgr := newLgr R m.md, checks := m.checks } (allData l) = p at hd
    obtain ⟨p, o⟩ := p
    obtain ⟨d1, d2⟩ := hd
    dsimp only at d1 d2
    have hnew : newRules p.lgr = setCls {} (tagClasses (lgrOf R.db R.force (newLgr R m.md) (allData l)).1) := by
      rw [d1]; rfl
    simp only [Option.getD]
    rcases hrun with ⟨⟨e, h1⟩, h2⟩ | ⟨L, r1, c1, c1', t1', ck1, g1, g2, g3, g4, g5, g6⟩
    · generalize forEach (readSect R) _ l = w at h1
      obtain ⟨w1, w2⟩ := w
      cases h1
      rcases h2 with ⟨e', h2⟩ | ⟨e', h2⟩
      · rw [h2] at d2
        subst d2
        simp
      · cases o with
        | error e => simp
        | ok u =>
          dsimp only
          rw [hnew]
          generalize parseRules R.parser (setCls {} _, {}) (allRules l) = w at h2
          obtain ⟨⟨w1, w3⟩, w2⟩ := w
          cases h2
          simp
    · rw [g2] at d1 d2 g5 hnew g3
      dsimp only at d1 d2 g5 hnew g3
      subst d1 d2
      dsimp only
      rw [g1, hnew, g3]
      dsimp only
      constructor
      · exact ⟨fun _ => ⟨_, rfl⟩, fun _ => ⟨_, rfl⟩⟩
      · intro g g' h h'
        cases h
        cases h'
        refine ⟨rfl, rfl, rfl, ?_, rfl⟩
        intro k
        show dget c1 k = dget c1' k
        cases hk : isTag k with
        | false => exact g4 k hk
        | true => rw [g5 k hk]; exact g6 k hk

/-! ## The same rules match the same -/

theorem getSet_congr {db : String → Except Err CpSet} {c c' : List (String × Cls)} (h : ∀ k, dget c k = dget c' k) :
    ∀ fuel k, Cls.getSet db c fuel k = Cls.getSet db c' fuel k := by
  intro fuel
  induction fuel with
  | zero => intro k; simp [Cls.getSet]
  | succ fuel ih =>
    have ih : Cls.getSet db c fuel = Cls.getSet db c' fuel := funext ih
    intro k
    cases k with
    | base b => simp only [Cls.getSet, h, ih]
    | comb n op cs => cases op <;> simp only [Cls.getSet, ih]

theorem patternC_congr {db : String → Except Err CpSet} {rl : List (String × Matcher)} {c c' : List (String × Cls)}
    (h : ∀ k, dget c k = dget c' k) : ∀ fuel beh m κ,
    Matcher.patternC db ⟨rl, c⟩ fuel beh m κ = Matcher.patternC db ⟨rl, c'⟩ fuel beh m κ := by
  intro fuel
  induction fuel with
  | zero => intro beh m κ; simp [Matcher.patternC]
  | succ fuel ih =>
    have ih : Matcher.patternC db ⟨rl, c⟩ fuel = Matcher.patternC db ⟨rl, c'⟩ fuel :=
      funext fun beh => funext fun m => funext fun κ => ih beh m κ
    intro beh m κ
    cases m with
    | cls k cnt =>
      simp only [Matcher.patternC, Matcher.classPattern]
      rw [getSet_congr h]
    | _ => simp only [Matcher.patternC, ih]

/-- Rules of LGRs which are the same match the same. -/
theorem same_matches {g g' : Loaded} (h : Same g g') (db : String → Except Err CpSet) (fuel : Nat) (n : String) (label : Seq)
    (anc : Option Seq) (index : Nat) :
    (g.rules.rs.matches_ db fuel n label anc index).2 = (g'.rules.rs.matches_ db fuel n label anc index).2 := by
  have hc := h.classes
  have e : g.rules.rs = { g'.rules.rs with lk := ⟨g'.rules.rs.lk.rules, g.rules.rs.lk.classes⟩ } := congrArg Rules.rs h.rest
  rw [e]
  unfold RuleState.matches_
  dsimp only
  cases dget g'.rules.rs.lk.rules n with
  | none => rfl
  | some m =>
    dsimp only
    unfold Matcher.ruleMatchesC
    rw [patternC_congr hc]

/-! ## Neighbouring sections -/

theorem item_bad (P : Parser) (s s' : Rules × RState) (n : Node) (h : (s.1, s.2.nextId) = (s'.1, s'.2.nextId)) :
    ((parseItem P s n).1.1, (parseItem P s n).1.2.nextId) = ((parseItem P s' n).1.1, (parseItem P s' n).1.2.nextId) ∧
      (parseItem P s n).2 = (parseItem P s' n).2 := by
  obtain ⟨r, t⟩ := s
  obtain ⟨r', t'⟩ := s'
  obtain ⟨h1, h2⟩ := Prod.mk.inj h
  dsimp only at h1 h2
  subst h1
  unfold parseItem
  split
  · cases parseClass n with
    | error e => dsimp only; rw [h2]; exact ⟨rfl, rfl⟩
    | ok k =>
      dsimp only
      rcases r.rs.addClass k P.force with ⟨rs, e | u⟩ <;> (dsimp only; rw [h2]; exact ⟨rfl, rfl⟩)
  · split
    · obtain ⟨g1, g2⟩ := ruleElem_bad n t t' h2
      dsimp only
      generalize parseRuleElem t n = u at g1 g2
      generalize parseRuleElem t' n = v at g1 g2
      obtain ⟨u1, u2⟩ := u
      obtain ⟨v1, v2⟩ := v
      dsimp only at g1 g2
      subst g1
      cases u2 with
      | error e => dsimp only; rw [g2]; exact ⟨rfl, rfl⟩
      | ok m =>
        dsimp only
        rcases r.rs.parseRule P.db P.fuel P.udb m P.force with ⟨rs, e | u⟩ <;> (dsimp only; rw [g2]; exact ⟨rfl, rfl⟩)
    · split
      · cases parseAction n <;> (dsimp only; rw [h2]; exact ⟨rfl, rfl⟩)
      · dsimp only; rw [h2]; exact ⟨rfl, rfl⟩

theorem orphanData_append (es fs : List Elem) : orphanData (es ++ fs) =
    match orphanData es with
    | .error e => .error e
    | .ok () => orphanData fs := by
  induction es with
  | nil => rfl
  | cons e es ih =>
    rw [List.cons_append, orphanData, orphanData, ih]
    split
    · cases getCp e.attrs <;> rfl
    · split
      · cases getHex e.attrs "first-cp" with
        | error _ => rfl
        | ok _ => cases getHex e.attrs "last-cp" <;> rfl
      · rfl

theorem orphanRules_append (ns os : List Node) : orphanRules (ns ++ os) =
    match orphanRules ns with
    | .error e => .error e
    | .ok () => orphanRules os := by
  induction ns with
  | nil => rfl
  | cons n ns ih =>
    rw [List.cons_append, orphanRules, orphanRules, ih]
    split
    · cases parseClass n <;> rfl
    · split
      · rcases parseRuleElem {} n with ⟨t, e | m⟩ <;> rfl
      · split
        · cases parseAction n <;> rfl
        · rfl

theorem withTags_twice (g g' : LGR) (r : Rules) : withTags g' (withTags g r) = withTags g' r := by
  have h : ((r.rs.lk.classes.filter (fun p => !isTag p.1)) ++ tagClasses g).filter (fun p => !isTag p.1) =
      r.rs.lk.classes.filter (fun p => !isTag p.1) := by
    rw [List.filter_append, List.filter_filter]
    have : (tagClasses g).filter (fun p => !isTag p.1) = [] := by
      rw [List.filter_eq_nil_iff]
      intro p hp
      unfold tagClasses at hp
      obtain ⟨q, -, rfl⟩ := List.mem_map.1 hp
      rw [isTag_iff.2 ⟨q.1, rfl⟩]
      simp
    rw [this]
    simp
  simp only [withTags, h]

/-- What a list of sections does to the LGR. -/
def effect (R : Reader) (o : Option Loaded) (l : List Sect) : Option Loaded × Except Err Unit :=
  ((forEach (readSect R) { lgr := o } l).1.lgr, (forEach (readSect R) { lgr := o } l).2)

theorem readDoc_effect (R : Reader) (c : Rfc7940.Results) (l : List Sect) : (readDoc R c l).2 =
    match effect R none l with
    | (_, .error e) => .error e
    | (o, .ok ()) => .ok o := by
  rw [readDoc_part R c [] l]
  unfold readDoc effect
  rcases forEach (readSect R) {} l with ⟨s, e | u⟩ <;> rfl

theorem effect_append (R : Reader) (o : Option Loaded) (l m : List Sect) : effect R o (l ++ m) =
    match effect R o l with
    | (o', .error e) => (o', .error e)
    | (o', .ok ()) => effect R o' m := by
  unfold effect
  rw [forEach_app']
  rcases h : forEach (readSect R) { lgr := o } l with ⟨s, e | u⟩
  · rfl
  · have := forEach_part (π := Reading.lgr) (fun s t a h => sect_part R s t a h) m s { lgr := s.lgr } rfl
    exact Prod.ext this.1 this.2

theorem effect_one (R : Reader) (o : Option Loaded) (x : Sect) :
    effect R o [x] = ((readSect R { lgr := o } x).1.lgr, (readSect R { lgr := o } x).2) := by
  unfold effect
  simp only [forEach]
  rcases readSect R { lgr := o } x with ⟨s, e | u⟩ <;> rfl

theorem effect_data (R : Reader) (g : Loaded) (es : List Elem) : effect R (some g) [.data es] =
    match lgrOf R.db R.force g.lgr es with
    | (_, .error e) => (some g, .error e)
    | (L, .ok ()) => (some { g with lgr := L, rules := withTags L g.rules }, .ok ()) := by
  rw [effect_one]
  simp only [readSect]
  have h := parseData_lgr R.db R.force { lgr := g.lgr, checks := [] } es
  dsimp only at h
  generalize parseData R.db R.force { lgr := g.lgr, checks := [] } es = u at h
  generalize lgrOf R.db R.force g.lgr es = v at h
  obtain ⟨p, o⟩ := u
  obtain ⟨q, o'⟩ := v
  obtain ⟨h1, h2⟩ := h
  dsimp only at h1 h2
  subst h1 h2
  cases o <;> rfl

theorem effect_rules (R : Reader) (g : Loaded) (ns : List Node) : effect R (some g) [.rules ns] =
    match parseRules R.parser (g.rules, { nextId := g.ids }) ns with
    | (_, .error e) => (some g, .error e)
    | ((r, t), .ok ()) => (some { g with rules := r, ids := t.nextId }, .ok ()) := by
  rw [effect_one]
  simp only [readSect]
  rcases parseRules R.parser (g.rules, { nextId := g.ids }) ns with ⟨⟨r, t⟩, e | u⟩ <;> rfl

theorem split_congr {R : Reader} {x y z : Sect}
    (h : ∀ o, (effect R o [x, y]).2 = (effect R o [z]).2 ∧ ((effect R o [z]).2 = .ok () → (effect R o [x, y]).1 = (effect R o [z]).1))
    (c : Rfc7940.Results) (pre post : List Sect) :
    (readDoc R c (pre ++ x :: y :: post)).2 = (readDoc R c (pre ++ z :: post)).2 := by
  rw [readDoc_effect, readDoc_effect, effect_append, effect_append]
  rcases effect R none pre with ⟨o, e | u⟩
  · rfl
  · dsimp only
    have e1 : effect R o (x :: y :: post) = _ := effect_append R o [x, y] post
    have e2 : effect R o (z :: post) = _ := effect_append R o [z] post
    rw [e1, e2]
    obtain ⟨h1, h2⟩ := h o
    generalize effect R o [x, y] = u at h1 h2
    generalize effect R o [z] = v at h1 h2
    obtain ⟨u1, u2⟩ := u
    obtain ⟨v1, v2⟩ := v
    dsimp only at h1 h2
    subst h1
    cases u2 with
    | error e => rfl
    | ok w => rw [h2 rfl]

/-- Two `data` sections, one after the other, are one with the elements of both. -/
theorem two_data (R : Reader) (c : Rfc7940.Results) (pre post : List Sect) (es fs : List Elem) :
    (readDoc R c (pre ++ .data es :: .data fs :: post)).2 = (readDoc R c (pre ++ .data (es ++ fs) :: post)).2 := by
  refine split_congr (fun o => ?_) c pre post
  have e0 : effect R o [.data es, .data fs] = _ := effect_append R o [.data es] [.data fs]
  rw [e0]
  cases o with
  | none =>
    rw [effect_one, effect_one]
    simp only [readSect]
    rw [orphanData_append]
    cases orphanData es with
    | error e => exact ⟨rfl, fun h => by cases h⟩
    | ok u => dsimp only; rw [effect_one]; exact ⟨rfl, fun _ => rfl⟩
  | some g =>
    rw [effect_data, effect_data, lgrOf_append]
    rcases lgrOf R.db R.force g.lgr es with ⟨L, e | u⟩
    · exact ⟨rfl, fun h => by cases h⟩
    · dsimp only
      rw [effect_data]
      dsimp only
      rcases lgrOf R.db R.force L fs with ⟨M, e | u⟩
      · exact ⟨rfl, fun h => by cases h⟩
      · refine ⟨rfl, fun _ => ?_⟩
        dsimp only
        rw [withTags_twice]

/-- Two `rules` sections, one after the other, are one with the elements of both. -/
theorem two_rules (R : Reader) (c : Rfc7940.Results) (pre post : List Sect) (ns os : List Node) :
    (readDoc R c (pre ++ .rules ns :: .rules os :: post)).2 = (readDoc R c (pre ++ .rules (ns ++ os) :: post)).2 := by
  refine split_congr (fun o => ?_) c pre post
  have e0 : effect R o [.rules ns, .rules os] = _ := effect_append R o [.rules ns] [.rules os]
  rw [e0]
  cases o with
  | none =>
    rw [effect_one, effect_one]
    simp only [readSect]
    rw [orphanRules_append]
    cases orphanRules ns with
    | error e => exact ⟨rfl, fun h => by cases h⟩
    | ok u => dsimp only; rw [effect_one]; exact ⟨rfl, fun _ => rfl⟩
  | some g =>
    rw [effect_rules, effect_rules]
    have e1 : parseRules R.parser (g.rules, { nextId := g.ids }) (ns ++ os) =
        match parseRules R.parser (g.rules, { nextId := g.ids }) ns with
        | (s', .ok ()) => parseRules R.parser s' os
        | (s', .error e) => (s', .error e) := by
      unfold parseRules
      rw [forEach_app']
      rcases forEach (parseItem R.parser) (g.rules, { nextId := g.ids }) ns with ⟨s', e | u⟩ <;> rfl
    rw [e1]
    rcases parseRules R.parser (g.rules, { nextId := g.ids }) ns with ⟨⟨r, t⟩, e | u⟩
    · exact ⟨rfl, fun h => by cases h⟩
    · dsimp only
      rw [effect_rules]
      dsimp only
      have hp := forEach_part (π := fun s : Rules × RState => (s.1, s.2.nextId)) (fun s t a h => item_bad R.parser s t a h) os
        (r, t) (r, { nextId := t.nextId }) rfl
      have hp : (fun s : Rules × RState => (s.1, s.2.nextId)) (parseRules R.parser (r, t) os).1 =
          (fun s : Rules × RState => (s.1, s.2.nextId)) (parseRules R.parser (r, { nextId := t.nextId }) os).1 ∧
          (parseRules R.parser (r, t) os).2 = (parseRules R.parser (r, { nextId := t.nextId }) os).2 := hp
      generalize parseRules R.parser (r, t) os = u at hp
      generalize parseRules R.parser (r, { nextId := t.nextId }) os = v at hp
      obtain ⟨⟨u1, u3⟩, u2⟩ := u
      obtain ⟨⟨v1, v3⟩, v2⟩ := v
      obtain ⟨h1, h2⟩ := hp
      dsimp only at h1 h2
      obtain ⟨h1, h3⟩ := Prod.mk.inj h1
      subst h1 h2
      cases u2 with
      | error e => exact ⟨rfl, fun h => by cases h⟩
      | ok w => dsimp only; rw [h3]; exact ⟨rfl, fun _ => rfl⟩

/-! ## Violations, and examples -/

/-- `<rule name="r"><class from-tag="t"/></rule>` -/
def tagRule : Node := .mk "rule" [("name", "r")] none [.mk "class" [("from-tag", "t")] none []]

/-- `<char cp="0061" tag="t"/>` -/
def tagged : Elem := { tag := "char", attrs := [("cp", "0061"), ("tag", "t")] }

theorem tagRule_reads (t : RState) : parseRuleElem t tagRule =
    ({ t with nextId := t.nextId + 1 }, .ok (.rule t.nextId (some "r") none [.cls (.base { fromTag := some "t" }) .none] .none)) := rfl

theorem classPattern_untagged (db : String → Except Err CpSet) (lk : Lookups) (h : dget lk.classes (Cls.tagPrefix ++ "t") = none) (f : Nat) :
    Matcher.classPattern db lk (f + 1) (.base { fromTag := some "t" }) = .ok .empty := by
  unfold Matcher.classPattern
  rw [Cls.getSet]
  simp only [h]
  have he : CpSet.isEmpty (fun _ => false) = true := by
    unfold CpSet.isEmpty
    rw [List.all_eq_true]
    exact fun _ _ => rfl
  rw [he]
  rfl

theorem pattern_tagRule (db : String → Except Err CpSet) (lk : Lookups) (f : Nat) (beh : Bool) (κ : Cache) (r : Re)
    (h : Matcher.classPattern db lk (f + 1) (.base { fromTag := some "t" }) = .ok r) (i : Nat) (hκ : dget κ (i, beh) = none) :
    Matcher.patternC db lk (f + 3) beh (.rule i (some "r") none [.cls (.base { fromTag := some "t" }) .none] .none) κ =
      (dset κ (i, beh) (.seqs [r]), .ok (.seqs [r])) := by
  rw [Matcher.patternC.eq_def]
  simp only [hκ, Matcher.mapC]
  rw [Matcher.patternC.eq_def]
  simp only [h]
  rfl

theorem precalc_tagRule (db : String → Except Err CpSet) (lk : Lookups) (f : Nat) (r : Re)
    (h : Matcher.classPattern db lk (f + 1) (.base { fromTag := some "t" }) = .ok r) (i : Nat) :
    Matcher.precalculate db lk (f + 3) (.rule i (some "r") none [.cls (.base { fromTag := some "t" }) .none] .none) [] =
      ([((i, true), .seqs [r]), ((i, false), .seqs [r])], .ok ()) := by
  unfold Matcher.precalculate
  rw [pattern_tagRule db lk f true [] r h i rfl]
  dsimp only
  rw [pattern_tagRule db lk f false _ r h i (by rw [dget_dset]; simp [dget])]
  simp [dset]

/-- A new LGR after the rule was read with a database. -/
theorem rules_tagRule {R : Reader} (hdb : R.db.isSome = true) {f : Nat} (hf : R.fuel = f + 3) (cl : List (String × Cls)) {r : Re}
    (h : Matcher.classPattern R.props { classes := cl } (f + 1) (.base { fromTag := some "t" }) = .ok r) :
    parseRules R.parser ({ rs := { lk := { classes := cl } } }, {}) [tagRule] =
      (({ rs := { lk := { rules := [("r", .rule 0 (some "r") none [.cls (.base { fromTag := some "t" }) .none] .none)], classes := cl },
                  cache := [((0, true), .seqs [r]), ((0, false), .seqs [r])] },
          ruleNames := [some "r"], rulesXml := [tagRule] }, { nextId := 1 }), .ok ()) := by
  unfold parseRules
  rw [forEach, parseItem]
  rw [if_neg (show ¬ (tagRule.tag = "class" ∨ (combOf tagRule.tag).isSome = true) by decide), if_pos (show tagRule.tag = "rule" from rfl)]
  dsimp only
  rw [tagRule_reads]
  dsimp only
  unfold RuleState.parseRule
  rw [if_pos (show R.parser.udb = true from hdb)]
  dsimp only
  have hp := precalc_tagRule R.props { classes := cl } f r h 0
  have hfu : R.parser.fuel = f + 3 := hf
  have hpr : R.parser.db = R.props := rfl
  rw [hfu, hpr, hp]
  dsimp only
  have hv : Matcher.validate { classes := cl } true (.rule 0 (some "r") none [.cls (.base { fromTag := some "t" }) .none] .none) = .ok () := by
    simp [Matcher.validate, Matcher.validateAll, Cls.validate]
  unfold RuleState.addRule
  dsimp only
  rw [hv]
  rfl

theorem meta_effect (R : Reader) (ms : List MElem) (l : List Sect) : effect R none (.metaE ms :: l) =
    match parseMeta R.x R.force [] ms with
    | (_, .error e) => (none, .error e)
    | (m, .ok ()) => effect R (some { md := m.md, lgr := newLgr R m.md, rules := {} }) l := by
  have e : effect R none (.metaE ms :: l) = _ := effect_append R none [.metaE ms] l
  rw [e, effect_one]
  simp only [readSect]
  rcases parseMeta R.x R.force [] ms with ⟨m, e | u⟩ <;> rfl

/-- The rules read first. -/
theorem rules_first {R : Reader} (hdb : R.db.isSome = true) {f : Nat} (hf : R.fuel = f + 3) (c : Rfc7940.Results) (ms : List MElem)
    (es : List Elem) (g : Loaded) (h : (readDoc R c [.metaE ms, .rules [tagRule], .data es]).2 = .ok (some g)) :
    dget g.rules.rs.lk.rules "r" = some (.rule 0 (some "r") none [.cls (.base { fromTag := some "t" }) .none] .none) ∧
    g.rules.rs.cache = [((0, true), .seqs [.empty]), ((0, false), .seqs [.empty])] := by
  rw [readDoc_effect, meta_effect] at h
  generalize parseMeta R.x R.force [] ms = pm at h
  rcases pm with ⟨m, e | u⟩
  · cases h
  · dsimp only at h
    have e1 : effect R (some { md := m.md, lgr := newLgr R m.md, rules := {} }) [.rules [tagRule], .data es] = _ :=
      effect_append R _ [.rules [tagRule]] [.data es]
    rw [e1, effect_rules] at h
    dsimp only at h
    have hr := rules_tagRule hdb hf [] (classPattern_untagged R.props { classes := [] } rfl f)
    rw [show (({ } : Rules), ({ nextId := 0 } : RState)) = ({ rs := { lk := { classes := [] } } }, {}) from rfl, hr] at h
    dsimp only at h
    rw [effect_data] at h
    dsimp only at h
    generalize lgrOf R.db R.force (newLgr R m.md) es = pl at h
    rcases pl with ⟨L, e | u⟩
    · cases h
    · cases h
      exact ⟨rfl, rfl⟩

/-- **C151** is violated when there is a Unicode database: in the first document, the rule is written before the code
point with the tag, so it never matches, for any label; in the second it is written after, and matches. -/
theorem rules_first_wrong :
    (∃ g, (readDoc C104.lenient [] [.metaE [], .rules [tagRule], .data [tagged]]).2 = .ok (some g) ∧
      ∀ db fuel label anc i, (g.rules.rs.matches_ db (fuel + 1) "r" label anc i).2 = .ok false) ∧
    ∃ g, (readDoc C104.lenient [] [.metaE [], .data [tagged], .rules [tagRule]]).2 = .ok (some g) ∧
      ∀ db fuel, (g.rules.rs.matches_ db (fuel + 1) "r" [0x61] none 0).2 = .ok true := by
  have hl : ∃ L, lgrOf C104.lenient.db C104.lenient.force (newLgr C104.lenient {}) [tagged] = (L, .ok ()) ∧
      dget (tagClasses L) (Cls.tagPrefix ++ "t") = some (.base { name := some "t", codepoints := [0x61] }) := by
    refine ⟨_, Prod.ext rfl ?_, ?_⟩
    · rfl
    · rfl
  obtain ⟨L, hl, ht⟩ := hl
  obtain ⟨cm, hm⟩ : ∃ cm, parseMeta C104.lenient.x C104.lenient.force [] [] = ({ checks := cm }, .ok ()) := ⟨_, rfl⟩
  constructor
  · have hx : ∃ g, (readDoc C104.lenient [] [.metaE [], .rules [tagRule], .data [tagged]]).2 = .ok (some g) := by
      rw [readDoc_effect, meta_effect, hm]
      dsimp only
      have e1 : effect C104.lenient (some { md := {}, lgr := newLgr C104.lenient {}, rules := {} }) [.rules [tagRule], .data [tagged]] = _ :=
        effect_append _ _ [.rules [tagRule]] [.data [tagged]]
      rw [e1, effect_rules]
      dsimp only
      have hr := rules_tagRule (R := C104.lenient) rfl (f := 2) rfl [] (classPattern_untagged C104.lenient.props { classes := [] } rfl 2)
      rw [show (({ } : Rules), ({ nextId := 0 } : RState)) = ({ rs := { lk := { classes := [] } } }, {}) from rfl, hr]
      dsimp only
      rw [effect_data]
      dsimp only
      rw [hl]
      exact ⟨_, rfl⟩
    obtain ⟨g, hg⟩ := hx
    obtain ⟨h1, h2⟩ := rules_first (R := C104.lenient) rfl (f := 2) rfl [] [] [tagged] g hg
    refine ⟨g, hg, ?_⟩
    intro db fuel label anc i
    unfold RuleState.matches_
    rw [h1]
    dsimp only
    rw [Matcher.ruleMatchesC, h2, Matcher.patternC.eq_def]
    rfl
  · rw [readDoc_effect, meta_effect, hm]
    dsimp only
    have e1 : effect C104.lenient (some { md := {}, lgr := newLgr C104.lenient {}, rules := {} }) [.data [tagged], .rules [tagRule]] = _ :=
      effect_append _ _ [.data [tagged]] [.rules [tagRule]]
    rw [e1, effect_data]
    dsimp only
    rw [hl]
    dsimp only
    rw [effect_rules]
    dsimp only
    have hs : Matcher.classPattern C104.lenient.props { classes := tagClasses L } (2 + 1) (.base { fromTag := some "t" }) =
        .ok (.set (fun c => decide (c ∈ [0x61]))) := by
      unfold Matcher.classPattern
      rw [Cls.getSet]
      simp only [ht]
      rw [Cls.getSet]
      simp only
      rw [C65.pat_of _ 0x61 (by decide) (by simp)]
    have hr := rules_tagRule (R := C104.lenient) rfl (f := 2) rfl (tagClasses L) hs
    rw [show (withTags L ({ } : Rules), ({ nextId := 0 } : RState)) = ({ rs := { lk := { classes := tagClasses L } } }, {}) from rfl, hr]
    refine ⟨_, rfl, ?_⟩
    intro db fuel
    unfold RuleState.matches_
    dsimp only
    rw [show dget [("r", Matcher.rule 0 (some "r") none [.cls (.base { fromTag := some "t" }) .none] .none)] "r" =
      some (Matcher.rule 0 (some "r") none [.cls (.base { fromTag := some "t" }) .none] .none) from rfl]
    dsimp only
    rw [Matcher.ruleMatchesC, Matcher.patternC.eq_def]
    have := C65.matches_set [0x61] (fun c => decide (c ∈ [0x61]))
    simp only [dget]
    simpa [withCount, Count.bounds] using this

/-- What is before a second `meta` is lost: of this document, only `b` is read. -/
theorem lost_wrong : (match (readDoc C104.reader0 []
      [.metaE [], .data [tagged], .metaE [], .data [{ tag := "char", attrs := [("cp", "0062")] }]]).2 with
    | .ok (some g) => decide (g.lgr.rep.lookup [0x61] = none ∧ (g.lgr.rep.lookup [0x62]).isSome = true)
    | _ => false) = true := by decide +kernel

/-- The hypotheses of `any_order_partial` are met by a document with its rules first and two `data` sections. -/
example : NoMeta [.rules [tagRule], .data [tagged], .other, .data [{ tag := "char", attrs := [("cp", "0062")] }]] ∧
    Outside (allRules [.rules [tagRule], .data [tagged]]) ∧
    (match (readDoc C104.reader0 []
      [.metaE [], .rules [tagRule], .data [tagged], .other, .data [{ tag := "char", attrs := [("cp", "0062")] }]]).2 with
    | .ok (some g) => decide ((g.lgr.rep.lookup [0x61]).isSome = true ∧ (g.lgr.rep.lookup [0x62]).isSome = true ∧
        (dget g.rules.rs.lk.rules "r").isSome = true ∧ (dget g.rules.rs.lk.classes (Cls.tagPrefix ++ "t")).isSome = true)
    | _ => false) = true := by
  refine ⟨?_, ?_, by decide +kernel⟩
  · intro ms h; simp at h
  · have all : ∀ m ∈ C149.belowAll (allRules [.rules [tagRule], .data [tagged]]), ∀ a ∈ ["name", "by-ref"],
        dget m.attrs a = none ∨ dget m.attrs a = some "r" := by decide +kernel
    intro m hm a t ha hk
    have hr : isTag "r" = false := by decide +kernel
    have ha : a ∈ ["name", "by-ref"] := by simpa using ha
    rcases all m hm a ha with h | h
    · rw [h] at hk; cases hk
    · rw [h] at hk
      rw [Option.some.inj hk, isTag_iff.2 ⟨t, rfl⟩] at hr
      cases hr

/-- `<rule name="s"><char cp="0061"/></rule>` -/
def charRule : Node := .mk "rule" [("name", "s")] none [.mk "char" [("cp", "0061")] none []]

/-- With a Unicode database, too, by a document with rules on no tags. -/
example : Untagged (allRules [.rules [charRule], .data [tagged]]) ∧
    (match (readDoc C104.lenient [] [.metaE [], .rules [charRule], .data [tagged]]).2 with
    | .ok (some g) => decide ((g.lgr.rep.lookup [0x61]).isSome = true ∧ (dget g.rules.rs.lk.rules "s").isSome = true)
    | _ => false) = true := by
  refine ⟨?_, by decide +kernel⟩
  intro m hm
  have all : ∀ m ∈ C149.belowAll (allRules [.rules [charRule], .data [tagged]]), dget m.attrs "from-tag" = none := by
    decide +kernel
  exact all m hm

end Lgr.Props.C151

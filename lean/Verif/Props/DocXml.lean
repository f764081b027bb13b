import Verif.Props.DocMeta
import Verif.Props.RulesXml

/-!
# C104: a whole document read, written and read again
-/

namespace Lgr.Props.C104
open Lgr Xml Text MetaXml RulesXml DocXml LGR C50 C34 C99 C101 C06

/-! ## What is asked and what is shown -/

/-- A document whose texts survive (`MElemOk`, `ElemOk`) and, if patterns are made, whose classes have
different names, which are not those of tags. -/
structure DocOk (R : Reader) (d : Doc) : Prop where
  metaOk : ∀ ms, d.metaE = some ms → ∀ e ∈ ms, MElemOk R.x R.force e
  dataOk : ∀ e ∈ d.data, ElemOk e
  classes : R.db.isSome = true → (classNames (d.rules.getD [])).Nodup ∧
    ∀ n ∈ classNames (d.rules.getD []), ∀ t, n ≠ Cls.tagPrefix ++ t

/-- Two LGRs which no operation tells apart, but for the next reference identifier and the order in which
sets and dictionaries list their members. -/
structure Alike (g g' : Loaded) : Prop where
  md : g'.md = { g.md with nextId := 0 }
  entries : ∀ k c, g.lgr.rep.lookup k = some c → ∃ c', g'.lgr.rep.lookup k = some c' ∧ Same c c'
  only : ∀ k, (g'.lgr.rep.lookup k).isSome → (g.lgr.rep.lookup k).isSome
  ranges : g'.lgr.rep.ranges.Perm g.lgr.rep.ranges
  refs : g'.lgr.refs.refs = g.lgr.refs.refs
  raises : g'.lgr.raiseInvalid = g.lgr.raiseInvalid
  tags : ∀ t x, x ∈ tagSet g'.lgr t ↔ x ∈ tagSet g.lgr t
  tagKeys : ∀ t, (dget g'.lgr.tagCls t).isSome = (dget g.lgr.tagCls t).isSome
  types : ∀ t, t ∈ g'.lgr.types ↔ t ∈ g.lgr.types
  classes : ∀ n, (dget g.rules.rs.lk.classes n).isSome = (dget g'.rules.rs.lk.classes n).isSome
  sameClass : ∀ n c, dget g.rules.rs.lk.classes n = some c → ∃ c', dget g'.rules.rs.lk.classes n = some c' ∧ CEq c c'
  rules : g'.rules.rs.lk.rules = g.rules.rs.lk.rules ∧ g'.rules.rs.cache = g.rules.rs.cache
  names : g'.rules.clsNames = g.rules.clsNames ∧ g'.rules.ruleNames = g.rules.ruleNames
  actions : g'.rules.actions = g.rules.actions

/-! ## Classes of tags -/

theorem prefix_inj {p a b : String} (h : p ++ a = p ++ b) : a = b := by
  have := congrArg String.toList h
  simp only [String.toList_append, List.append_cancel_left_eq] at this
  exact String.toList_inj.1 this

theorem dget_tagClasses (l : List (String × List Nat)) (t : String) :
    dget (l.map (fun p => (Cls.tagPrefix ++ p.1, Cls.base { name := some p.1, codepoints := p.2 }))) (Cls.tagPrefix ++ t) =
      (dget l t).map (fun cps => .base { name := some t, codepoints := cps }) := by
  induction l with
  | nil => rfl
  | cons p l ih =>
    obtain ⟨u, cps⟩ := p
    simp only [List.map_cons, dget]
    by_cases h : u = t
    · subst h; simp
    · rw [if_neg (fun he => h (prefix_inj he)), if_neg h, ih]

theorem dget_tagClasses_other (l : List (String × List Nat)) {n : String} (h : ∀ t, n ≠ Cls.tagPrefix ++ t) :
    dget (l.map (fun p => (Cls.tagPrefix ++ p.1, Cls.base { name := some p.1, codepoints := p.2 }))) n = none := by
  rw [dget_eq_none]
  intro hm
  simp only [List.map_map, List.mem_map, Function.comp] at hm
  obtain ⟨p, -, hp⟩ := hm
  exact h _ hp.symm

theorem sim_tags {g g' : LGR} (hk : ∀ t, (dget g.tagCls t).isSome = (dget g'.tagCls t).isSome)
    (ht : ∀ t x, x ∈ tagSet g t ↔ x ∈ tagSet g' t) : Sim true (tagClasses g) (tagClasses g') := by
  have key : ∀ n, (∃ t, n = Cls.tagPrefix ++ t) ∨ ∀ t, n ≠ Cls.tagPrefix ++ t := by
    intro n
    by_cases h : ∃ t, n = Cls.tagPrefix ++ t
    · exact .inl h
    · exact .inr (fun t ht => h ⟨t, ht⟩)
  refine ⟨fun n => ?_, fun _ n c hc => ?_⟩
  · rcases key n with ⟨t, rfl⟩ | h
    · unfold tagClasses
      rw [dget_tagClasses, dget_tagClasses, Option.isSome_map, Option.isSome_map]
      exact hk t
    · unfold tagClasses
      rw [dget_tagClasses_other _ h, dget_tagClasses_other _ h]
  · rcases key n with ⟨t, rfl⟩ | h
    · unfold tagClasses at hc ⊢
      rw [dget_tagClasses] at hc ⊢
      obtain ⟨cps, h1, rfl⟩ := Option.map_eq_some_iff.1 hc
      have h2 := hk t
      rw [h1] at h2
      obtain ⟨cps', h3⟩ := Option.isSome_iff_exists.1 h2.symm
      rw [h3]
      refine ⟨_, rfl, .inr ⟨_, _, rfl, rfl, ⟨rfl, rfl, rfl⟩, ⟨rfl, rfl, rfl⟩, fun c => ?_⟩⟩
      have := ht t c
      unfold tagSet at this
      rw [h1, h3] at this
      exact this
    · unfold tagClasses at hc
      rw [dget_tagClasses_other _ h] at hc
      cases hc

theorem ext_true {udb : Bool} {a b : List (String × Cls)} (h : Ext true a b) : Ext udb a b :=
  ⟨h.1, fun _ => h.2 rfl⟩

/-! ## References -/

theorem readable_refs {db : UniDb} {strict force : Bool} {m m' : RefManager} (hm : m'.refs = m.refs) {c : CharObj}
    (h : Readable db strict force m c) : Readable db strict force m' c :=
  ⟨h.allowed, by rw [hm]; exact h.refs, h.refWords, h.tagWords, h.xml, h.plain, by rw [hm]; exact h.vars⟩

theorem manager_get (m : Meta) (i : String) : (dget (managerOf m).refs i).isSome = (dget m.refs i).isSome := by
  unfold managerOf
  dsimp only
  induction m.refs with
  | nil => rfl
  | cons p l ih =>
    obtain ⟨k, v⟩ := p
    simp only [List.map_cons, dget]
    split
    · rfl
    · exact ih

theorem failed_get (ls : List String) (cs : Rfc7940.Results) (l : String)
    (h : dget (failed cs ls) l = some false) : dget cs l = some false ∨ l ∈ ls := by
  induction ls generalizing cs with
  | nil => exact .inl h
  | cons a ls ih =>
    rcases ih _ h with h | h
    · rcases addTest_get _ _ _ _ h with h | h
      · exact .inl h
      · exact .inr (by rw [h.1]; simp)
    · exact .inr (List.mem_cons_of_mem _ h)

theorem orderNotes_labels : ∀ (p : Seq) (ks : List Seq), ∀ l ∈ orderNotes p ks,
    l = "char_ascending_order" ∨ l = "char_strict_ascending_order"
  | _, [], l, h => by simp [orderNotes] at h
  | p, k :: ks, l, h => by
    rw [orderNotes, List.mem_append] at h
    rcases h with h | h
    · split at h
      · simp only [List.mem_singleton] at h
        rw [h]
        split
        · exact .inr rfl
        · exact .inl rfl
      · simp at h
    · exact orderNotes_labels k ks l h

/-! ## Writing and reading again -/

/-- What the writer and the next reading need: `Good` without the types of variants. -/
structure Fit (db : UniDb) (strict force : Bool) (m : RefManager) (g : LGR) : Prop where
  refs : g.refs = m
  raises : g.raiseInvalid = strict
  inv : Inv (Readable db strict force m) g.rep
  intact : Intact g.rep
  tags : ∀ t x, x ∈ tagSet g t ↔ ∃ k c, g.rep.lookup k = some c ∧ t ∈ c.attrs.tags ∧ x ∈ k
  keys : ∀ t, (dget g.tagCls t).isSome → ∃ x, x ∈ tagSet g t

theorem good_fit {db : UniDb} {strict force : Bool} {m : RefManager} {g : LGR} (h : Good db strict force m g) :
    Fit db strict force m g :=
  ⟨h.refs, h.raises, h.inv, h.intact, h.tags, h.keys⟩

theorem keys_of_tags {db : UniDb} {strict force : Bool} {m : RefManager} {g : LGR} (h : Fit db strict force m g)
    (t : String) : (dget g.tagCls t).isSome = true ↔ ∃ x, x ∈ tagSet g t := by
  refine ⟨h.keys t, fun ⟨x, hx⟩ => ?_⟩
  unfold tagSet at hx
  cases hd : dget g.tagCls t with
  | none => rw [hd] at hx; simp at hx
  | some l => rfl

/-- The types of the variants of the entries. -/
def Used (r : Repertoire) (t : Option String) : Prop := ∃ k c, r.lookup k = some c ∧ ∃ v ∈ c.getVariants, v.type = t

/-- An LGR whose metadata, entries and rules are fit is written; the document is read again into the same. -/
theorem fit_reread (R : Reader) (hx : Sound R.x) (hs : Safe R.db R.strict R.force) {ma : Meta} {q : LGR}
    (hM : MGood R.x R.force ma) (hG : Fit R.db R.strict R.force (managerOf ma) q) {ns : List Node} {r : Rules} {t : RState}
    (hc : R.db.isSome = true → (classNames ns).Nodup ∧ ∀ n ∈ classNames ns, ∀ t, n ≠ Cls.tagPrefix ++ t)
    (hpr : parseRules R.parser (newRules q, {}) ns = ((r, t), .ok ())) {ids : Nat} (cs' : Rfc7940.Results) :
    ∃ d' cs2 g', serializeDoc { md := ma, lgr := q, rules := r, ids := ids } = .ok d' ∧
      parseDoc R cs' d' = (cs2, .ok (some g')) ∧
      ((∀ t, t ∈ q.types ↔ Used q.rep t) → Alike { md := ma, lgr := q, rules := r, ids := ids } g') ∧
      Alike { md := ma, lgr := { q with types := g'.lgr.types }, rules := r, ids := ids } g' ∧
      (∀ t, t ∈ g'.lgr.types ↔ Used q.rep t) ∧ g'.lgr.rep.WF ∧
      serializeDoc g' = .ok d' ∧
      (R.force = false → t.bad = false → ∀ l, dget cs2 l = some false →
        dget cs' l = some false ∨ l = "char_ascending_order" ∨ l = "char_strict_ascending_order") := by
  obtain ⟨mes, ma', m1, m2, m3, m4, -⟩ := meta_round_trip_partial hx.cdata hM.writable cs'
  have hmr : (managerOf ma'.md).refs = (managerOf ma).refs := by rw [m3]; rfl
  obtain ⟨des, p', d1, d2, d3, d4, d5, d6, d7, d8, d9, d10, d11, d12, d13⟩ :=
    data_round_trip_partial (m := managerOf ma'.md) hG.inv.wf hG.intact
      (fun k c hk => readable_refs hmr (hG.inv.all k c hk)) ma'.checks []
  have htags : ∀ t x, x ∈ tagSet p'.lgr t ↔ x ∈ tagSet q t := fun t x => (d10 t x).trans (hG.tags t x).symm
  have hkeys' : ∀ t, (dget p'.lgr.tagCls t).isSome = true ↔ ∃ x, x ∈ tagSet p'.lgr t := by
    have hok : ∀ e ∈ des, ElemOk e := by
      unfold serializeData at d1
      dsimp only at d1
      split at d1
      · rename_i hall
        cases d1
        intro e he
        have := List.all_eq_true.1 hall e he
        unfold Elem.ok at this
        simp only [Bool.and_eq_true, List.all_eq_true] at this
        exact ⟨fun q hq => this.1 q hq, fun a ha q hq => this.2 a ha q hq⟩
      · cases d1
    have hG' : Good R.db R.strict R.force (managerOf ma'.md) p'.lgr :=
      good_data (fun hf => by rw [hmr, manager_get]; exact hM.ids hf) hs hok d2
    exact keys_of_tags (good_fit hG')
  have hkeys : ∀ t, (dget p'.lgr.tagCls t).isSome = (dget q.tagCls t).isSome := by
    intro t
    rw [Bool.eq_iff_iff, hkeys', keys_of_tags hG]
    exact exists_congr (fun x => htags t x)
  have hsim : Sim true (tagClasses q) (tagClasses p'.lgr) :=
    sim_tags (fun t => (hkeys t).symm) (fun t x => (htags t x).symm)
  obtain ⟨r1, ⟨r', t'⟩, r2, r3, r4, r5, r6, r7, r8, r9⟩ := rules_reread (P := R.parser) (steady_sim true)
    (fun {a b} h => ext_true h.ext) (s := (newRules q, {})) (t := (newRules p'.lgr, {})) ⟨rfl, rfl, rfl⟩ hpr
    (fun hu => ⟨(hc hu).1, fun n hn => ⟨dget_tagClasses_other _ ((hc hu).2 n hn), (hc hu).2 n hn⟩⟩)
    hsim rfl rfl rfl rfl rfl
  simp only [rpart, Prod.mk.injEq] at r6
  simp only [apart, Prod.mk.injEq] at r7
  have hserm : serializeMeta ma'.md = .ok mes := by rw [m3]; exact m1
  refine ⟨{ metaE := some mes, data := des, rules := some (serializeRules r) },
    Rfc7940.addTestResult (noteBad t'.bad p'.checks) "parse_xml" true,
    { md := ma'.md, lgr := p'.lgr, rules := r', ids := t'.nextId }, ?_, ?_, ?_, ?_, ?_, ?_, ?_, ?_⟩
  · unfold serializeDoc
    dsimp only
    rw [m1, d1]
  · unfold parseDoc
    dsimp only
    rw [m2]
    dsimp only
    have d2' : parseData R.db R.force { lgr := newLgr R ma'.md, checks := ma'.checks } des = (p', .ok ()) := d2
    rw [d2']
    dsimp only [Option.getD_some]
    rw [r2]
  · intro hty
    exact {
      md := m3, entries := d3, only := d4, ranges := d5
      refs := by dsimp only; rw [d8, hG.refs, hmr]
      raises := by dsimp only; rw [d9, hG.raises]
      tags := htags, tagKeys := hkeys
      types := fun t => (d11 t).trans (hty t).symm
      classes := r3.1, sameClass := r3.2 rfl
      rules := ⟨r6.1, r6.2.1⟩
      names := ⟨r4, r6.2.2.1⟩
      actions := r7.1 }
  · exact {
      md := m3, entries := d3, only := d4, ranges := d5
      refs := by dsimp only; rw [d8, hG.refs, hmr]
      raises := by dsimp only; rw [d9, hG.raises]
      tags := htags, tagKeys := hkeys
      types := fun t => Iff.rfl
      classes := r3.1, sameClass := r3.2 rfl
      rules := ⟨r6.1, r6.2.1⟩
      names := ⟨r4, r6.2.2.1⟩
      actions := r7.1 }
  · exact d11
  · exact d6
  · unfold serializeDoc
    dsimp only
    rw [hserm, d12]
    dsimp only
    unfold serializeRules
    rw [r5, r6.2.2.2, r7.2]
  · intro hf hb l hl
    have hb' : t'.bad = false := by
      rw [r9 hb]
    rw [hb'] at hl
    rcases addTest_get _ _ _ _ hl with hl | hl
    · rw [noteBad, if_neg (by simp), d13] at hl
      rcases addTest_get _ _ _ _ hl with hl | hl
      · rcases addTest_get _ _ _ _ hl with hl | hl
        · rcases failed_get _ _ _ hl with hl | hl
          · refine .inl (m4 ⟨fun v hv => ?_, fun v hv => ?_⟩ l hl)
            · obtain ⟨v', hv', -, hok⟩ := hM.writable.unicode
              rw [hv] at hv'
              cases hv'
              exact hok hf
            · obtain ⟨-, ok, hc, hok⟩ := hM.writable.languages v hv
              rw [hc, hok hf]
          · exact .inr (orderNotes_labels _ _ l hl)
        · cases hl.2
      · cases hl.2
    · cases hl.2

/-! ## The document -/

/-- **C104** (partial) A document which the parser reads is read into an LGR that can be written; the written
document is read without exception; the LGR read from it is the same for every operation: metadata,
references, entries with their variants, ranges, tag classes, types of variants, classes, rules and their
patterns, actions; and writing it gives the same document again. Without `force`, if no element of the
document was unknown, no conformance check fails for the written document but those about the order of
the characters. Missing: texts and names for which it is false (`DocOk`; see the `*_wrong` theorems of C34, C99
and C101), and documents without `<meta>`, see `no_meta_wrong`. -/
theorem document_round_trip_partial (R : Reader) (hx : Sound R.x) (hs : Safe R.db R.strict R.force) {d : Doc}
    (hd : DocOk R d) {cs cs1 : Rfc7940.Results} {g : Loaded} (h : parseDoc R cs d = (cs1, .ok (some g)))
    (cs' : Rfc7940.Results) :
    ∃ d' cs2 g', serializeDoc g = .ok d' ∧ parseDoc R cs' d' = (cs2, .ok (some g')) ∧ Alike g g' ∧
      serializeDoc g' = .ok d' ∧
      (R.force = false → dget cs1 "parse_xml" ≠ some false → ∀ l, dget cs2 l = some false →
        dget cs' l = some false ∨ l = "char_ascending_order" ∨ l = "char_strict_ascending_order") := by
  unfold parseDoc at h
  cases hms : d.metaE with
  | none =>
    rw [hms] at h
    simp only [Prod.mk.injEq] at h
    exfalso
    have h2 := h.2
    unfold orphan at h2
    split at h2
    · cases h2
    · split at h2
      · cases h2
      · cases h2
  | some ms =>
  rw [hms] at h
  dsimp only at h
  cases hpm : parseMeta R.x R.force cs ms with
  | mk ma o =>
  rw [hpm] at h
  cases o with
  | error e => simp at h
  | ok u =>
  dsimp only at h
  cases hpd : parseData R.db R.force { lgr := newLgr R ma.md, checks := ma.checks } d.data with
  | mk p o =>
  rw [hpd] at h
  cases o with
  | error e => simp at h
  | ok u =>
  dsimp only at h
  cases hpr : parseRules R.parser (newRules p.lgr, {}) (d.rules.getD []) with
  | mk rt o =>
  obtain ⟨r, t⟩ := rt
  rw [hpr] at h
  cases o with
  | error e => simp at h
  | ok u =>
  simp only [Prod.mk.injEq, Except.ok.injEq, Option.some.injEq] at h
  obtain ⟨hcs1, rfl⟩ := h
  -- the sections of what was read
  have hM := mgood_meta hx (hd.metaOk ms hms) hpm
  have hG : Good R.db R.strict R.force (managerOf ma.md) p.lgr :=
    good_data (fun hf => by rw [manager_get]; exact hM.ids hf) hs hd.dataOk hpd
  obtain ⟨d', cs2, g', w1, w2, w3, -, -, -, w4, w5⟩ := fit_reread R hx hs hM (good_fit hG) hd.classes hpr
    (ids := t.nextId) cs'
  refine ⟨d', cs2, g', w1, w2, w3 hG.types, w4, fun hf hpx => w5 hf ?_⟩
  cases hb : t.bad with
  | false => rfl
  | true =>
    exfalso
    apply hpx
    rw [← hcs1, hb]
    simp [noteBad, Rfc7940.addTestResult, dget_dset]

end Lgr.Props.C104

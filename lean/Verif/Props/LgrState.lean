import Verif.LgrOps
import Verif.Props.LgrRange
import Verif.Props.References

/-!
# Invariants of LGR histories: effects of variant edits (C50), C10 and C51

`Inv P` says the repertoire is well-formed and every character satisfies `P`.
-/

namespace Lgr.Props
open Lgr LGR Repertoire

/-! ### Variant edits on one character -/

theorem char_addVariant_effect {c c' : CharObj} (h : c.VarWF) {v : Variant}
    (he : c.addVariant v = .ok c') :
    c'.cp = c.cp ∧ c'.range = c.range ∧ c.range = none ∧ c'.attrs = c.attrs ∧ c'.VarWF ∧
      ∀ u, u ∈ c'.getVariants ↔ u ∈ c.getVariants ∨ u = v := by
  have hr : c.range = none := by
    by_contra hn
    have : c.range.isSome := Option.isSome_iff_ne_none.2 hn
    simp [CharObj.addVariant, this] at he
  have hs : c.varStep (.add v) = (c', .ok true) := by simp [CharObj.varStep, he]
  obtain ⟨k1, k2, k3⟩ := C01.varStep_keeps c (.add v)
  obtain ⟨s1, s2⟩ := C08.step_refines h hr (.add v)
  have hwf := CharObj.varStep_wf h (.add v)
  rw [hs] at k1 k2 k3 s1 s2 hwf
  refine ⟨k1, k2, hr, k3, hwf, ?_⟩
  simp only [C08.specStep] at s1 s2
  split at s2
  · simp at s2
  rename_i hne
  rw [if_neg hne] at s1
  split at s2
  · simp at s2
  rename_i hnone
  rw [if_neg hnone] at s1
  intro u
  have h1 : u ∈ c'.getVariants ↔ C08.view c' u.key = some u := by
    rw [C08.view_eq_some hwf]; simp
  have h2 : u ∈ c.getVariants ↔ C08.view c u.key = some u := by
    rw [C08.view_eq_some h]; simp
  rw [h1, h2, s1]
  simp only [C08.upd]
  by_cases hk : u.key = v.key
  · rw [if_pos hk, hk]
    simp only [Bool.not_eq_true, Option.isSome_eq_false_iff, Option.isNone_iff_eq_none] at hnone
    rw [hnone]
    simp only [Option.some.injEq, reduceCtorEq, false_or]
    exact eq_comm
  · rw [if_neg hk]
    have : u ≠ v := fun h => hk (by rw [h])
    simp [this]

theorem char_delVariant_effect {c c' : CharObj} (h : c.VarWF) {k : Seq} {w n : Option String} {b : Bool}
    (he : c.delVariant k w n = .ok (c', b)) :
    c'.cp = c.cp ∧ c'.range = c.range ∧ c.range = none ∧ c'.attrs = c.attrs ∧ c'.VarWF ∧
      (b = true ↔ C50.HasVar c k w n) ∧
      ∀ u, u ∈ c'.getVariants ↔ u ∈ c.getVariants ∧ u.key ≠ (k, w, n) := by
  have hr : c.range = none := by
    by_contra hn
    have : c.range.isSome := Option.isSome_iff_ne_none.2 hn
    simp [CharObj.delVariant, this] at he
  have hs : c.varStep (.del k w n) = (c', .ok b) := by simp [CharObj.varStep, he]
  obtain ⟨k1, k2, k3⟩ := C01.varStep_keeps c (.del k w n)
  obtain ⟨s1, s2⟩ := C08.step_refines h hr (.del k w n)
  have hwf := CharObj.varStep_wf h (.del k w n)
  rw [hs] at k1 k2 k3 s1 s2 hwf
  refine ⟨k1, k2, hr, k3, hwf, ?_⟩
  have hhas : C50.HasVar c k w n ↔ (C08.view c (k, w, n)).isSome = true := by
    unfold C50.HasVar
    rw [Option.isSome_iff_exists]
    constructor
    · rintro ⟨u, h1, h2⟩; exact ⟨u, (C08.view_eq_some h).2 ⟨h1, h2⟩⟩
    · rintro ⟨u, hu⟩; obtain ⟨h1, h2⟩ := (C08.view_eq_some h).1 hu; exact ⟨u, h1, h2⟩
  simp only [C08.specStep] at s1 s2
  split at s2
  · simp at s2
  rename_i hne
  rw [if_neg hne] at s1
  have h1 : ∀ u, u ∈ c'.getVariants ↔ C08.view c' u.key = some u := by
    intro u; rw [C08.view_eq_some hwf]; simp
  have h2 : ∀ u, u ∈ c.getVariants ↔ C08.view c u.key = some u := by
    intro u; rw [C08.view_eq_some h]; simp
  split at s2
  · rename_i hsome
    rw [if_pos hsome] at s1
    simp only [Except.ok.injEq] at s2
    refine ⟨by rw [hhas]; simp [s2, hsome], ?_⟩
    intro u
    rw [h1, h2, s1]
    simp only [C08.upd]
    by_cases hk : u.key = (k, w, n)
    · simp [hk]
    · simp [hk]
  · rename_i hsome
    rw [if_neg hsome] at s1
    simp only [Except.ok.injEq] at s2
    refine ⟨by rw [hhas]; simp [s2, hsome], ?_⟩
    intro u
    rw [h1, h2, s1]
    simp only [iff_self_and]
    intro hv hk
    apply hsome
    rw [← hk, hv]; rfl

namespace C50

/-- **C50** What a successful `add_variant` does: the character gains exactly this variant (with the
defined references) and keeps the rest, the variant types gain its type, nothing else changes. -/
theorem add_variant_effect (db : UniDb) (g : LGR) (hwf : WF g.rep) (arg var : CpArg)
    (type : Option String) (o : Opts) (h : (g.addVariant db arg var type o).2 = .ok ()) :
    ∃ s v c c', Denotes arg s ∧ Denotes var v ∧ g.rep.lookup s = some c ∧ c.range = none ∧
      c'.cp = s ∧ c'.range = none ∧ c'.attrs = c.attrs ∧
      (∀ u, u ∈ c'.getVariants ↔ u ∈ c.getVariants ∨
        u = ⟨v, type, o.whenR, o.notWhenR, o.comment, knownRefs g o⟩) ∧
      (∀ k, (g.addVariant db arg var type o).1.rep.lookup k =
        if k = s then some c' else g.rep.lookup k) ∧
      (g.addVariant db arg var type o).1.rep.ranges = g.rep.ranges ∧
      (∀ t, t ∈ (g.addVariant db arg var type o).1.types ↔ t ∈ g.types ∨ t = type) ∧
      (g.addVariant db arg var type o).1.tagCls = g.tagCls ∧
      (g.addVariant db arg var type o).1.refs = g.refs ∧
      (g.addVariant db arg var type o).1.raiseInvalid = g.raiseInvalid := by
  unfold LGR.addVariant at h ⊢
  cases hc : g.addVariantChecks db arg var type o with
  | error e => rw [hc] at h; simp at h
  | ok p =>
    obtain ⟨s, v⟩ := p
    rw [hc] at h
    simp only at h ⊢
    obtain ⟨h1, h2, h3, h4, h5, h6, h7⟩ := addVariantChecks_ok.1 hc
    cases hr : g.rep.addVariant s v with
    | error e => rw [hr] at h; simp at h
    | ok r =>
      simp only
      unfold Repertoire.addVariant at hr
      split at hr
      · simp at hr
      rename_i c hg
      split at hr
      · simp at hr
      rename_i c' hc'
      simp only [Except.ok.injEq] at hr
      subst hr
      have hl := getChar_ok.1 hg
      have hcp := lookup_cp hl
      obtain ⟨e1, e2, e3, e4, e5, e6⟩ := char_addVariant_effect (lookup_charWF hwf hl).varWF hc'
      refine ⟨s, v.cp, c, c', h1, h3, hl, e3, by rw [e1, hcp], by rw [e2, e3], e4, ?_, ?_, ?_, ?_,
        trivial, trivial, trivial⟩
      · intro u; rw [e6, h6]
      · intro k
        rw [lookup_putChar (by rw [e1, hcp, hl]; rfl), e1, hcp]
      · exact putChar_ranges _ _
      · intro t
        by_cases ht : type ∈ g.types
        · simp only [ht, if_true]
          exact ⟨Or.inl, fun h => h.elim id fun h => h ▸ ht⟩
        · simp [ht]

/-- **C50** What a `del_variant` that returns does: the character loses exactly the variant with
these code points and context rules, and the call returns whether there was one. -/
theorem del_variant_effect (db : UniDb) (g : LGR) (hwf : WF g.rep) (arg var : CpArg)
    (w n : Option String) (b : Bool) (h : (g.delVariant db arg var w n).2 = .ok b) :
    ∃ s v c c', Denotes arg s ∧ var = .seq v ∧ g.rep.lookup s = some c ∧ c.range = none ∧
      c'.cp = s ∧ c'.range = none ∧ c'.attrs = c.attrs ∧ (b = true ↔ HasVar c v w n) ∧
      (∀ u, u ∈ c'.getVariants ↔ u ∈ c.getVariants ∧ u.key ≠ (v, w, n)) ∧
      (∀ k, (g.delVariant db arg var w n).1.rep.lookup k =
        if k = s then some c' else g.rep.lookup k) ∧
      (g.delVariant db arg var w n).1.rep.ranges = g.rep.ranges ∧
      (g.delVariant db arg var w n).1.types = g.types ∧
      (g.delVariant db arg var w n).1.tagCls = g.tagCls ∧
      (g.delVariant db arg var w n).1.refs = g.refs ∧
      (g.delVariant db arg var w n).1.raiseInvalid = g.raiseInvalid := by
  unfold LGR.delVariant at h ⊢
  cases hc : checkConvert db g.raiseInvalid arg with
  | error e => rw [hc] at h; simp at h
  | ok s =>
    rw [hc] at h
    simp only at h ⊢
    have hother : ∀ (x : Except Err CharObj) (F : CharObj → Err),
        (match x with
          | .error e => (g, .error e)
          | .ok c => (g, .error (F c)) : LGR × Except Err Bool).2 ≠ .ok b := by
      intro x F; cases x <;> simp
    cases var with
    | int x => exact absurd h (hother _ _)
    | other => exact absurd h (hother _ _)
    | seq v =>
      simp only at h ⊢
      cases hr : g.rep.delVariant s v w n with
      | error e => rw [hr] at h; simp at h
      | ok p =>
        obtain ⟨r, b'⟩ := p
        rw [hr] at h
        simp only [Except.ok.injEq] at h ⊢
        subst h
        unfold Repertoire.delVariant at hr
        split at hr
        · simp at hr
        rename_i c hg
        split at hr
        · simp at hr
        rename_i c' b'' hc'
        simp only [Except.ok.injEq, Prod.mk.injEq] at hr
        obtain ⟨rfl, rfl⟩ := hr
        have hl := getChar_ok.1 hg
        have hcp := lookup_cp hl
        obtain ⟨e1, e2, e3, e4, e5, e6, e7⟩ := char_delVariant_effect (lookup_charWF hwf hl).varWF hc'
        refine ⟨s, v, c, c', (checkConvert_ok.1 hc).1, rfl, hl, e3, by rw [e1, hcp], by rw [e2, e3],
          e4, e6, e7, ?_, putChar_ranges _ _, trivial, trivial, trivial, trivial⟩
        intro k
        rw [lookup_putChar (by rw [e1, hcp, hl]; rfl), e1, hcp]

end C50

/-! ### Invariants through the repertoire calls -/

structure Inv (P : CharObj → Prop) (r : Repertoire) : Prop where
  wf : WF r
  all : ∀ k c, r.lookup k = some c → P c

variable {P : CharObj → Prop}

theorem inv_ranges {r : Repertoire} (h : Inv P r) (rs) : Inv P { r with ranges := rs } :=
  ⟨wf_ranges h.wf rs, fun k c hc => h.all k c (by rwa [lookup_ranges] at hc)⟩

theorem inv_addCharObj {r r' : Repertoire} {c : CharObj} (h : Inv P r) (hc : CharWF c) (hp : P c)
    (he : r.addCharObj c = .ok r') : Inv P r' := by
  refine ⟨addCharObj_wf h.wf hc he, ?_⟩
  intro k d hd
  rw [lookup_addCharObj he] at hd
  split at hd
  · cases hd; exact hp
  · exact h.all k d hd

theorem inv_delCharObj {r r' : Repertoire} {k : Seq} (h : Inv P r)
    (he : r.delCharObj k = some r') : Inv P r' := by
  refine ⟨delCharObj_wf h.wf he, ?_⟩
  intro k d hd
  rw [lookup_delCharObj h.wf he] at hd
  split at hd
  · simp at hd
  · exact h.all k d hd

theorem inv_putChar {r : Repertoire} {c d : CharObj} (h : Inv P r) (hc : CharWF c) (hp : P c)
    (hl : r.lookup c.cp = some d) : Inv P (r.putChar c) := by
  refine ⟨putChar_wf h.wf hc, ?_⟩
  intro k e he
  rw [lookup_putChar (by rw [hl]; rfl)] at he
  split at he
  · cases he; exact hp
  · exact h.all k e he

theorem inv_addChar {r r' : Repertoire} {s : Seq} {a : Attrs} (h : Inv P r)
    (hp : P { cp := s, attrs := a }) (he : r.addChar s a = .ok r') : Inv P r' :=
  inv_addCharObj h (single_wf s a) hp (C50.addChar_ok he).2

theorem inv_addRangeLoop {f l : Nat} {a : Attrs} (cps : List Nat) (hin : ∀ x ∈ cps, f ≤ x ∧ x ≤ l)
    (hp : ∀ x, P (rangeChar f l a x)) {r : Repertoire} (h : Inv P r) :
    Inv P (addRangeLoop f l a r cps).1 := by
  induction cps generalizing r with
  | nil => exact h
  | cons x cps ih =>
    unfold addRangeLoop
    split
    · rename_i r' he
      exact ih (fun y hy => hin y (by simp [hy]))
        (inv_addCharObj h (rangeChar_wf a (hin x (by simp))) (hp x) he)
    · exact h

theorem inv_addRange {f l : Nat} {a : Attrs} (hp : ∀ x, P (rangeChar f l a x)) {r : Repertoire}
    (h : Inv P r) : Inv P (r.addRange f l a true).1 := by
  unfold Repertoire.addRange
  split
  · exact h
  simp only [if_true, Bool.false_eq_true, if_false]
  have := inv_addRangeLoop (a := a) (cpRange f l) (fun x hx => mem_cpRange.1 hx) hp h
  generalize addRangeLoop f l a r (cpRange f l) = res at this
  obtain ⟨r', o⟩ := res
  cases o with
  | ok u => exact inv_ranges this _
  | error e => exact this

theorem inv_insertRanges {a : Attrs} (hp : ∀ x, P { cp := [x], attrs := a })
    (hp' : ∀ f l x, P (rangeChar f l a x)) (rs : List (Nat × Nat)) {r : Repertoire} (h : Inv P r) :
    Inv P (insertRanges a r rs).1 := by
  induction rs generalizing r with
  | nil => exact h
  | cons p rs ih =>
    obtain ⟨f, l⟩ := p
    unfold insertRanges
    split
    · split
      · exact h
      · rename_i r' he
        exact ih (inv_addChar h (hp f) he)
    · have := inv_addRange (f := f) (l := l) (hp' f l) h
      generalize r.addRange f l a true = res at this
      obtain ⟨r', o⟩ := res
      cases o with
      | ok u => exact ih this
      | error e => exact this

theorem inv_insertList {a : Attrs} (hp : ∀ x, P { cp := [x], attrs := a })
    (hp' : ∀ f l x, P (rangeChar f l a x)) (cps : List Nat) {r : Repertoire} (h : Inv P r) :
    Inv P (insertList r cps a).1 := by
  unfold insertList
  split
  · exact h
  · exact inv_insertRanges hp hp' _ h

theorem inv_delRangeLoop (cps : List Nat) {r : Repertoire} (h : Inv P r) :
    Inv P (delRangeLoop r cps).1 := by
  induction cps generalizing r with
  | nil => exact h
  | cons x cps ih =>
    unfold delRangeLoop
    split
    · rename_i r' he
      exact ih (inv_delCharObj h he)
    · exact h

theorem inv_delRange (f l : Nat) {r : Repertoire} (h : Inv P r) : Inv P (r.delRange f l).1 := by
  unfold Repertoire.delRange
  split
  · exact h
  split
  · exact h
  have := inv_delRangeLoop (cpRange f l) h
  generalize delRangeLoop r (cpRange f l) = res at this
  obtain ⟨r', o⟩ := res
  cases o with
  | ok u => exact inv_ranges this _
  | error e => exact this

theorem inv_addSingles {a : Attrs} (hp : ∀ x, P { cp := [x], attrs := a }) (cps : List Nat)
    {r : Repertoire} (h : Inv P r) : Inv P (addSingles a r cps).1 := by
  induction cps generalizing r with
  | nil => exact h
  | cons x cps ih =>
    unfold addSingles
    split
    · exact h
    · rename_i r' he
      exact ih (inv_addChar h (hp x) he)

theorem inv_expandRange {db : UniDb} (hexp : ∀ c x, P c → P { cp := [x], attrs := c.attrs })
    {g : LGR} (h : Inv P g.rep) (f l : Nat) : Inv P (g.expandRange db f l).1.rep := by
  unfold expandRange
  split
  · exact h
  split
  · exact h
  rename_i c hc
  have hpc : P c := by
    unfold LGR.getChar at hc
    split at hc
    · simp at hc
    · exact h.all _ _ (getChar_ok.1 hc)
  have := inv_delRange f l h
  generalize g.rep.delRange f l = res at this
  obtain ⟨r', o⟩ := res
  cases o with
  | error e => exact this
  | ok u =>
    simp only
    exact inv_addSingles (hexp c · hpc) _ this

theorem inv_expandLoop {db : UniDb} (hexp : ∀ c x, P c → P { cp := [x], attrs := c.attrs })
    (rs : List (Nat × Nat)) {g : LGR} (h : Inv P g.rep) : Inv P (g.expandLoop db rs).1.rep := by
  induction rs generalizing g with
  | nil => exact h
  | cons p rs ih =>
    obtain ⟨f, l⟩ := p
    unfold expandLoop
    have := inv_expandRange (db := db) hexp h f l
    generalize g.expandRange db f l = res at this
    obtain ⟨g', o⟩ := res
    cases o with
    | error e => exact this
    | ok u => exact ih this

theorem inv_mapChars {r : Repertoire} (h : Inv P r) {F : CharObj → CharObj}
    (hcp : ∀ c, (F c).cp = c.cp) (hwf : ∀ c, CharWF c → CharWF (F c)) {Q : CharObj → Prop}
    (hq : ∀ c, CharWF c → P c → Q (F c)) :
    Inv Q (r.mapChars F) ∧ ∀ k, (r.mapChars F).lookup k = (r.lookup k).map F := by
  have hlook : ∀ k, (r.mapChars F).lookup k = (r.lookup k).map F := by
    intro k
    cases k with
    | nil => rfl
    | cons i t =>
      have hb : (r.mapChars F).bucket i = (r.bucket i).map F := by
        unfold bucket Repertoire.mapChars
        have : dget (r.dict.map (fun p => (p.1, p.2.map F))) i = (dget r.dict i).map (List.map F) := by
          induction r.dict with
          | nil => rfl
          | cons p d ih =>
            obtain ⟨a, b⟩ := p
            simp only [List.map_cons, dget]
            split <;> simp_all
        simp only [this]
        cases dget r.dict i <;> rfl
      simp only [lookup, hb, List.find?_map]
      congr 1
      congr 1
      funext c
      simp [Function.comp, hcp]
  refine ⟨⟨⟨?_, ?_, ?_, ?_, ?_⟩, ?_⟩, hlook⟩
  · have := h.wf.keys
    simpa [Repertoire.mapChars, List.map_map, Function.comp_def] using this
  · intro p hp
    simp only [Repertoire.mapChars, List.mem_map] at hp
    obtain ⟨q, hq, rfl⟩ := hp
    simpa using h.wf.nonempty q hq
  · intro p hp c hc
    simp only [Repertoire.mapChars, List.mem_map] at hp
    obtain ⟨q, hq, rfl⟩ := hp
    obtain ⟨d, hd, rfl⟩ := List.mem_map.1 hc
    rw [hcp]; exact h.wf.filed q hq d hd
  · intro p hp
    simp only [Repertoire.mapChars, List.mem_map] at hp
    obtain ⟨q, hq, rfl⟩ := hp
    have : (q.2.map F).map CharObj.cp = q.2.map CharObj.cp := by
      rw [List.map_map]; exact List.map_congr_left fun c _ => hcp c
    rw [this]; exact h.wf.uniq q hq
  · intro p hp c hc
    simp only [Repertoire.mapChars, List.mem_map] at hp
    obtain ⟨q, hq, rfl⟩ := hp
    obtain ⟨d, hd, rfl⟩ := List.mem_map.1 hc
    exact hwf d (h.wf.chars q hq d hd)
  · intro k c hc
    rw [hlook] at hc
    obtain ⟨d, hd, rfl⟩ := Option.map_eq_some_iff.1 hc
    exact hq d (lookup_charWF h.wf hd) (h.all k d hd)

/-! ### Invariants through the LGR calls -/

/-- What `add_cp` and `add_range` require of the attributes they store. -/
structure Fresh (g : LGR) (o : Opts) : Prop where
  refs : o.force = false → C50.RefsOk g o
  tags : o.force = false → o.tag.Nodup

theorem inv_addCp {db : UniDb} {g : LGR} {arg : CpArg} {o : Opts} (h : Inv P g.rep)
    (hp : Fresh g o → ∀ s, s ≠ [] → (o.force = false → C50.StrictTags s o) →
      P { cp := s, attrs := mkAttrs o (C50.knownRefs g o) }) :
    Inv P (g.addCp db arg o).1.rep := by
  unfold addCp
  split
  · exact h
  rename_i s a hc
  obtain ⟨h1, -, -, rfl, h5⟩ := C50.addCpChecks_ok.1 hc
  split
  · exact h
  rename_i r hr
  exact inv_addChar h (hp ⟨fun hf => (h5 hf).1.2, fun hf => (h5 hf).2.1⟩ s (C50.denotes_ne h1)
    fun hf => (h5 hf).2) hr

theorem inv_delCp {db : UniDb} {g : LGR} {arg : CpArg} (h : Inv P g.rep) :
    Inv P (g.delCp db arg).1.rep := by
  unfold delCp
  split
  · exact h
  split
  · exact h
  split
  · exact h
  rename_i r hr
  unfold delChar at hr
  split at hr
  · simp at hr
  split at hr
  · rename_i r' hr'
    simp only [Except.ok.injEq] at hr; subst hr
    exact inv_delCharObj h hr'
  · simp at hr

theorem inv_addRangeL {db : UniDb} {g : LGR} {f l : Nat} {o : Opts} (h : Inv P g.rep)
    (hp : Fresh g o → ∀ x, P { cp := [x], attrs := mkAttrs o (C50.knownRefs g o) })
    (hp' : Fresh g o → ∀ f l x, P (rangeChar f l (mkAttrs o (C50.knownRefs g o)) x)) :
    Inv P (g.addRange db f l o).1.rep := by
  rcases C04.addRange_cases db g f l o with ⟨e, he, _⟩ | ⟨cps, hpass, he⟩
  · rw [he]; exact h
  · rw [he]
    have hf : Fresh g o := ⟨fun hf => (hpass.strict hf).1.2, fun hf => (hpass.strict hf).2⟩
    have := inv_insertList (hp hf) (hp' hf) cps h
    generalize insertList g.rep cps (mkAttrs o (C50.knownRefs g o)) = res at this
    obtain ⟨r, out⟩ := res
    cases out <;> exact this

theorem inv_addVariant {db : UniDb} {g : LGR} {arg var : CpArg} {t : Option String} {o : Opts}
    (h : Inv P g.rep)
    (hp : (o.force = false → C50.RefsOk g o) → ∀ c c' : CharObj, CharWF c → P c → c'.cp = c.cp →
      c'.range = c.range → c'.attrs = c.attrs →
      (∀ u ∈ c'.getVariants, u ∈ c.getVariants ∨ u.refs = C50.knownRefs g o) → P c') :
    Inv P (g.addVariant db arg var t o).1.rep := by
  unfold LGR.addVariant
  split
  · exact h
  rename_i s v hc
  obtain ⟨h1, -, h3, -, -, h6, h7⟩ := C50.addVariantChecks_ok.1 hc
  split
  · exact h
  rename_i r hr
  unfold Repertoire.addVariant at hr
  split at hr
  · simp at hr
  rename_i c hg
  split at hr
  · simp at hr
  rename_i c' hc'
  simp only [Except.ok.injEq] at hr
  subst hr
  have hl := getChar_ok.1 hg
  have hcw := lookup_charWF h.wf hl
  obtain ⟨e1, e2, e3, e4, e5, e6⟩ := char_addVariant_effect hcw.varWF hc'
  refine inv_putChar (d := c) h ⟨e5, ?_⟩ ?_ (by rw [e1, lookup_cp hl, hl])
  · rw [e2, e3]; simp
  · refine hp (fun hf => (h7 hf).2) c c' hcw (h.all _ _ hl) e1 e2 e4 ?_
    intro u hu
    rcases (e6 u).1 hu with hu | rfl
    · exact Or.inl hu
    · right; rw [h6]

theorem inv_delVariant {db : UniDb} {g : LGR} {arg var : CpArg} {w n : Option String}
    (h : Inv P g.rep)
    (hp : ∀ c c' : CharObj, CharWF c → P c → c'.cp = c.cp → c'.range = c.range →
      c'.attrs = c.attrs → (∀ u ∈ c'.getVariants, u ∈ c.getVariants) → P c') :
    Inv P (g.delVariant db arg var w n).1.rep := by
  cases hres : (g.delVariant db arg var w n).2 with
  | error e => rw [C02.del_variant_atomic db g arg var w n e hres]; exact h
  | ok b =>
    unfold LGR.delVariant at hres ⊢
    cases hc : checkConvert db g.raiseInvalid arg with
    | error e => exact h
    | ok s =>
      simp only
      cases var with
      | int x => simp only; cases g.rep.getChar s <;> exact h
      | other => simp only; cases g.rep.getChar s <;> exact h
      | seq v =>
        simp only
        cases hr : g.rep.delVariant s v w n with
        | error e => exact h
        | ok p =>
          obtain ⟨r, b'⟩ := p
          simp only
          unfold Repertoire.delVariant at hr
          split at hr
          · simp at hr
          rename_i c hg
          split at hr
          · simp at hr
          rename_i c' b'' hc'
          simp only [Except.ok.injEq, Prod.mk.injEq] at hr
          obtain ⟨rfl, rfl⟩ := hr
          have hl := getChar_ok.1 hg
          have hcw := lookup_charWF h.wf hl
          obtain ⟨e1, e2, e3, e4, e5, e6, e7⟩ := char_delVariant_effect hcw.varWF hc'
          refine inv_putChar (d := c) h ⟨e5, ?_⟩ ?_ (by rw [e1, lookup_cp hl, hl])
          · rw [e2, e3]; simp
          · exact hp c c' hcw (h.all _ _ hl) e1 e2 e4 fun u hu => ((e7 u).1 hu).1

/-- The calls made by `add_codepoints` have no `force`. -/
theorem inv_addCollapsed {db : UniDb} {o : Opts} (I : LGR → Prop)
    (hcp : ∀ g s, I g → I (g.addCp db (.seq [s]) o).1) (hr : ∀ g f l, I g → I (g.addRange db f l o).1)
    (rs : List (Nat × Nat)) {g : LGR} (h : I g) : I (g.addCollapsed db o rs).1 := by
  induction rs generalizing g with
  | nil => exact h
  | cons p rs ih =>
    obtain ⟨f, l⟩ := p
    unfold addCollapsed
    have : I (if f = l then g.addCp db (.seq [f]) o else g.addRange db f l o).1 := by
      split
      · exact hcp g f h
      · exact hr g f l h
    generalize (if f = l then g.addCp db (.seq [f]) o else g.addRange db f l o) = res at this
    obtain ⟨g', out⟩ := res
    cases out with
    | error e => exact this
    | ok u => exact ih this

theorem delReference_wf {c : CharObj} (i : String) (h : CharWF c) : CharWF (c.delReference i) := by
  have hkeys : (c.delReference i).vars.map Prod.fst = c.vars.map Prod.fst := by
    simp [CharObj.delReference, Function.comp_def]
  refine ⟨⟨by rw [hkeys]; exact h.varWF.keys, ?_, ?_, ?_, ?_⟩, h.rangeCp⟩
  · intro p hp
    simp only [CharObj.delReference, List.mem_map] at hp
    obtain ⟨q, hq, rfl⟩ := hp
    simpa using h.varWF.nonempty q hq
  · intro p hp v hv
    simp only [CharObj.delReference, List.mem_map] at hp
    obtain ⟨q, hq, rfl⟩ := hp
    obtain ⟨u, hu, rfl⟩ := List.mem_map.1 hv
    exact h.varWF.filed q hq u hu
  · intro p hp
    simp only [CharObj.delReference, List.mem_map] at hp
    obtain ⟨q, hq, rfl⟩ := hp
    have he : (q.2.map (fun v : Variant => { v with refs := v.refs.erase i })).map Variant.key =
        q.2.map Variant.key := by
      rw [List.map_map]; rfl
    simp only
    rw [he]; exact h.varWF.uniq q hq
  · intro hr
    have := h.varWF.range hr
    simp [CharObj.delReference, this]

/-- The variants after deleting a reference. -/
theorem mem_delReference {c : CharObj} (i : String) (h : CharWF c) (u : Variant) :
    u ∈ (c.delReference i).getVariants ↔
      ∃ v ∈ c.getVariants, u = { v with refs := v.refs.erase i } := by
  have hd : ∀ k, dget (c.delReference i).vars k =
      (dget c.vars k).map (List.map fun v => { v with refs := v.refs.erase i }) := by
    intro k
    unfold CharObj.delReference
    simp only
    induction c.vars with
    | nil => rfl
    | cons p d ih =>
      obtain ⟨a, b⟩ := p
      simp only [List.map_cons, dget]
      split <;> simp_all
  rw [CharObj.mem_getVariants (delReference_wf i h).varWF]
  constructor
  · rintro ⟨vs, h1, h2⟩
    rw [hd] at h1
    obtain ⟨ws, h3, rfl⟩ := Option.map_eq_some_iff.1 h1
    obtain ⟨v, hv, rfl⟩ := List.mem_map.1 h2
    exact ⟨v, (CharObj.mem_getVariants h.varWF v).2 ⟨ws, h3, hv⟩, rfl⟩
  · rintro ⟨v, hv, rfl⟩
    obtain ⟨vs, h1, h2⟩ := (CharObj.mem_getVariants h.varWF v).1 hv
    exact ⟨_, by rw [hd]; simp only; rw [h1]; rfl, List.mem_map.2 ⟨v, h2, rfl⟩⟩

/-- Everything needed to keep an invariant through any call. -/
theorem inv_step (P : LGR → CharObj → Prop) (hpos : ∀ g g' c, g.refs = g'.refs → P g c → P g' c)
    (hexp : ∀ g c x, P g c → P g { cp := [x], attrs := c.attrs })
    (ctx : Ctx) (g : LGR) (op : LGR.Op) (h : Inv (P g) g.rep)
    (hm : (g.refs.refs.map Prod.fst).Nodup)
    (hnew : ∀ o g1, g1.refs = g.refs → (∃ arg, op = .addCp arg o) ∨ (∃ f l, op = .addRange f l o) ∨
        (o.force = false ∧ ∃ cps o', op = .addCodepoints cps o') → Fresh g1 o → ∀ s range, s ≠ [] →
        P g1 { cp := s, range := range, attrs := mkAttrs o (C50.knownRefs g1 o) })
    (hvar : ∀ arg var t o, op = .addVariant arg var t o → (o.force = false → C50.RefsOk g o) →
      ∀ c c' : CharObj, CharWF c → P g c → c'.cp = c.cp → c'.range = c.range → c'.attrs = c.attrs →
      (∀ u ∈ c'.getVariants, u ∈ c.getVariants ∨ u.refs = C50.knownRefs g o) → P g c')
    (hdelv : ∀ c c' : CharObj, CharWF c → P g c → c'.cp = c.cp → c'.range = c.range →
      c'.attrs = c.attrs → (∀ u ∈ c'.getVariants, u ∈ c.getVariants) → P g c')
    (htag : ∀ t c, CharWF c → P g c → P g (c.delTag t))
    (hadd : ∀ g1, (∀ i, (dget g.refs.refs i).isSome → (dget g1.refs.refs i).isSome) →
      ∀ c, P g c → P g1 c)
    (hdelr : ∀ i g1, op = .delReference i →
      (∀ j, (dget g1.refs.refs j).isSome ↔ (dget g.refs.refs j).isSome ∧ (j ≠ i)) →
      ∀ c, CharWF c → P g c → P g1 (c.delReference i)) :
    Inv (P (LGR.step ctx g op).1) (LGR.step ctx g op).1.rep := by
  have lift : ∀ {g' : LGR}, g'.refs = g.refs → Inv (P g) g'.rep → Inv (P g') g'.rep :=
    fun he hi => ⟨hi.wf, fun k c hc => hpos _ _ c he.symm (hi.all k c hc)⟩
  cases op with
  | addCp arg o =>
    refine lift ?_ (inv_addCp h fun hf s hs _ => hnew o g rfl (Or.inl ⟨arg, rfl⟩) hf s none hs)
    simp only [LGR.step, addCp]; split; · rfl
    split <;> rfl
  | delCp arg =>
    refine lift ?_ (inv_delCp h)
    simp only [LGR.step, delCp]; split; · rfl
    split; · rfl
    split <;> rfl
  | addRange f l o =>
    refine lift ?_ (inv_addRangeL h
      (fun hf x => hnew o g rfl (Or.inr (Or.inl ⟨f, l, rfl⟩)) hf [x] none (by simp))
      (fun hf f' l' x => hnew o g rfl (Or.inr (Or.inl ⟨f, l, rfl⟩)) hf [x] (some (f', l')) (by simp)))
    simp only [LGR.step]
    rcases C04.addRange_cases ctx.db g f l o with ⟨e, he, _⟩ | ⟨cps, _, he⟩
    · rw [he]
    · rw [he]; split <;> rfl
  | delRange f l =>
    have key : (LGR.step ctx g (.delRange f l)).1 = g ∨
        (LGR.step ctx g (.delRange f l)).1 = { g with rep := (g.rep.delRange f l).1 } := by
      simp only [LGR.step, LGR.delRange]; split
      · exact Or.inl rfl
      · exact Or.inr rfl
    rcases key with he | he
    · rw [he]; exact h
    · rw [he]; exact lift rfl (inv_delRange f l h)
  | expandRange f l =>
    refine lift ?_ (inv_expandRange (hexp g) h f l)
    simp only [LGR.step, LGR.expandRange]; split; · rfl
    split; · rfl
    split <;> rfl
  | expandRanges =>
    refine lift ?_ (inv_expandLoop (hexp g) _ h)
    simp only [LGR.step, LGR.expandRanges]
    generalize g.rep.ranges = rs
    clear h hm hnew hvar hdelv htag hadd hdelr lift
    induction rs generalizing g with
    | nil => rfl
    | cons p rs ih =>
      obtain ⟨f, l⟩ := p
      unfold expandLoop
      have : (g.expandRange ctx.db f l).1.refs = g.refs := by
        simp only [LGR.expandRange]; split; · rfl
        split; · rfl
        split <;> rfl
      generalize g.expandRange ctx.db f l = res at this
      obtain ⟨g', o⟩ := res
      cases o with
      | error e => exact this
      | ok u => simp only; rw [ih g']; exact this
  | addVariant arg var t o =>
    refine lift ?_ (inv_addVariant h (hvar arg var t o rfl))
    simp only [LGR.step, LGR.addVariant]; split; · rfl
    split <;> rfl
  | delVariant arg var w n =>
    have he : (LGR.step ctx g (.delVariant arg var w n)).1 = (g.delVariant ctx.db arg var w n).1 := by
      simp only [LGR.step]
      generalize g.delVariant ctx.db arg var w n = res
      obtain ⟨g', o⟩ := res
      cases o <;> rfl
    rw [he]
    refine lift ?_ (inv_delVariant h hdelv)
    cases hres : (g.delVariant ctx.db arg var w n).2 with
    | error e => rw [C02.del_variant_atomic ctx.db g arg var w n e hres]
    | ok b =>
      obtain ⟨_, _, _, _, _, _, _, _, _, _, _, _, _, _, _, _, _, h1, _⟩ :=
        C50.del_variant_effect ctx.db g h.wf arg var w n b hres
      exact h1
  | addCodepoints cps o =>
    simp only [LGR.step, addCodepoints]
    split
    · exact h
    · split
      · exact h
      rename_i rs _
      have : ∀ g1 : LGR, g1.refs = g.refs ∧ Inv (P g1) g1.rep →
          ((addCollapsed ctx.db g1 ({ comment := o.comment, ref := o.ref, tag := o.tag } : Opts)
            rs).1.refs = g.refs ∧ Inv (P (addCollapsed ctx.db g1
              ({ comment := o.comment, ref := o.ref, tag := o.tag } : Opts) rs).1)
              (addCollapsed ctx.db g1
              ({ comment := o.comment, ref := o.ref, tag := o.tag } : Opts) rs).1.rep) := by
        intro g1 hg1
        refine inv_addCollapsed (fun g1 => g1.refs = g.refs ∧ Inv (P g1) g1.rep) ?_ ?_ rs hg1
        · rintro g2 s ⟨h1, h2⟩
          have hrefs : (g2.addCp ctx.db (.seq [s])
              ({ comment := o.comment, ref := o.ref, tag := o.tag } : Opts)).1.refs = g2.refs := by
            simp only [addCp]; split; · rfl
            split <;> rfl
          refine ⟨hrefs.trans h1, ?_⟩
          have := inv_addCp (db := ctx.db) (arg := .seq [s]) h2 fun hf s hs _ =>
            hnew ({ comment := o.comment, ref := o.ref, tag := o.tag } : Opts) g2 h1
              (Or.inr (Or.inr ⟨rfl, _, _, rfl⟩)) hf s none hs
          exact ⟨this.wf, fun k c hc => hpos _ _ c hrefs.symm (this.all k c hc)⟩
        · rintro g2 f l ⟨h1, h2⟩
          have hrefs : (g2.addRange ctx.db f l
              ({ comment := o.comment, ref := o.ref, tag := o.tag } : Opts)).1.refs = g2.refs := by
            rcases C04.addRange_cases ctx.db g2 f l
              ({ comment := o.comment, ref := o.ref, tag := o.tag } : Opts) with
              ⟨e, he, _⟩ | ⟨cps, _, he⟩
            · rw [he]
            · rw [he]; split <;> rfl
          refine ⟨hrefs.trans h1, ?_⟩
          have := inv_addRangeL (db := ctx.db) (f := f) (l := l) h2
            (fun hf x => hnew ({ comment := o.comment, ref := o.ref, tag := o.tag } : Opts) g2 h1
              (Or.inr (Or.inr ⟨rfl, _, _, rfl⟩)) hf [x] none (by simp))
            (fun hf f' l' x => hnew ({ comment := o.comment, ref := o.ref, tag := o.tag } : Opts) g2 h1
              (Or.inr (Or.inr ⟨rfl, _, _, rfl⟩)) hf [x] (some (f', l')) (by simp))
          exact ⟨this.wf, fun k c hc => hpos _ _ c hrefs.symm (this.all k c hc)⟩
      exact (this g ⟨rfl, h⟩).2
  | delTag t =>
    refine lift rfl (inv_mapChars (F := fun c => c.delTag t) h (fun _ => rfl)
      (fun c hc => ⟨⟨hc.varWF.keys, hc.varWF.nonempty, hc.varWF.filed, hc.varWF.uniq,
        hc.varWF.range⟩, hc.rangeCp⟩) (htag t)).1
  | addReference v k i =>
    have hcase : (∃ e, (LGR.step ctx g (.addReference v k i)) = (g, .error e)) ∨
        ∃ m s, g.refs.addReference ctx.valid v k i = .ok (m, s) ∧
          (LGR.step ctx g (.addReference v k i)).1 = { g with refs := m } := by
      simp only [LGR.step, LGR.addReference]
      cases hr : g.refs.addReference ctx.valid v k i with
      | error e => exact Or.inl ⟨e, rfl⟩
      | ok p => exact Or.inr ⟨p.1, p.2, rfl, rfl⟩
    rcases hcase with ⟨e, he⟩ | ⟨m, s, hm, he⟩
    · rw [he]; exact h
    · rw [he]
      refine ⟨h.wf, fun k c hc => hadd _ ?_ c (h.all k c hc)⟩
      intro j hj
      simp only
      unfold RefManager.addReference at hm
      cases i with
      | some i =>
        simp only at hm
        split at hm
        · simp at hm
        split at hm
        · simp at hm
        simp only [Except.ok.injEq, Prod.mk.injEq] at hm
        rw [← hm.1]; simp only [dget_dset]
        split <;> simp [hj]
      | none =>
        simp only [Except.ok.injEq, Prod.mk.injEq] at hm
        rw [← hm.1]; simp only [dget_dset]
        split <;> simp [hj]
  | delReference i =>
    simp only [LGR.step, LGR.delReference]
    have hF := fun (Q : CharObj → Prop) => inv_mapChars (F := fun c => c.delReference i) (Q := Q) h
      (fun _ => rfl) (fun c hc => delReference_wf i hc)
    cases hr : g.refs.delReference ctx.pyInt i with
    | error e =>
      simp only
      refine (hF _ fun c hc hp => hdelr i _ rfl ?_ c hc hp).1
      intro j
      simp only [iff_self_and]
      rintro hj rfl
      unfold RefManager.delReference at hr
      split at hr
      · rename_i hn
        rw [Option.isNone_iff_eq_none] at hn
        rw [hn] at hj; simp at hj
      · simp only at hr
        split at hr
        · split at hr <;> simp at hr
        · simp at hr
    | ok m =>
      simp only
      refine (hF _ fun c hc hp => hdelr i _ rfl ?_ c hc hp).1
      intro j
      have : m.refs = ddel g.refs.refs i := by
        unfold RefManager.delReference at hr
        split at hr
        · simp at hr
        · simp only at hr
          split at hr
          · split at hr <;> · simp only [Except.ok.injEq] at hr; rw [← hr]
          · simp only [Except.ok.injEq] at hr; rw [← hr]
      simp only [this, dget_ddel hm]
      by_cases hj : i = j
      · simp [hj]
      · have : ¬ j = i := fun h => hj h.symm
        simp [hj, this]
  | setRaise b => exact lift rfl h

theorem expandLoop_refs (db : UniDb) (rs : List (Nat × Nat)) (g : LGR) :
    (g.expandLoop db rs).1.refs = g.refs := by
  induction rs generalizing g with
  | nil => rfl
  | cons p rs ih =>
    obtain ⟨f, l⟩ := p
    unfold expandLoop
    have : (g.expandRange db f l).1.refs = g.refs := by
      simp only [LGR.expandRange]; split; · rfl
      split; · rfl
      split <;> rfl
    generalize g.expandRange db f l = res at this
    obtain ⟨g', o⟩ := res
    cases o with
    | error e => exact this
    | ok u => simp only; rw [ih g']; exact this

theorem addCp_refs (db : UniDb) (g : LGR) (arg : CpArg) (o : Opts) :
    (g.addCp db arg o).1.refs = g.refs := by
  simp only [addCp]; split; · rfl
  split <;> rfl

theorem addRange_refs (db : UniDb) (g : LGR) (f l : Nat) (o : Opts) :
    (g.addRange db f l o).1.refs = g.refs := by
  rcases C04.addRange_cases db g f l o with ⟨e, he, _⟩ | ⟨cps, _, he⟩
  · rw [he]
  · rw [he]; split <;> rfl

/-- The reference manager changes only through its own calls. -/
theorem step_refs (ctx : Ctx) (g : LGR) (op : LGR.Op) :
    (LGR.step ctx g op).1.refs = g.refs ∨
      ∃ rop, (LGR.step ctx g op).1.refs = (g.refs.step ctx.valid ctx.pyInt rop).1 := by
  cases op with
  | addCp arg o => exact Or.inl (addCp_refs _ _ _ _)
  | delCp arg =>
    left
    simp only [LGR.step, delCp]; split; · rfl
    split; · rfl
    split <;> rfl
  | addRange f l o => exact Or.inl (addRange_refs _ _ _ _ _)
  | delRange f l => left; simp only [LGR.step, LGR.delRange]; split <;> rfl
  | expandRange f l =>
    left
    simp only [LGR.step, LGR.expandRange]; split; · rfl
    split; · rfl
    split <;> rfl
  | expandRanges => exact Or.inl (expandLoop_refs _ _ _)
  | addVariant arg var t o =>
    left
    simp only [LGR.step, LGR.addVariant]; split; · rfl
    split <;> rfl
  | delVariant arg var w n =>
    left
    have he : (LGR.step ctx g (.delVariant arg var w n)).1 = (g.delVariant ctx.db arg var w n).1 := by
      simp only [LGR.step]
      generalize g.delVariant ctx.db arg var w n = res
      obtain ⟨g', o⟩ := res
      cases o <;> rfl
    rw [he]
    unfold LGR.delVariant
    split
    · rfl
    · cases var with
      | seq v => simp only; split <;> rfl
      | int x => simp only; split <;> rfl
      | other => simp only; split <;> rfl
  | addCodepoints cps o =>
    left
    simp only [LGR.step, addCodepoints]
    split
    · rfl
    · split
      · rfl
      · exact inv_addCollapsed (fun g1 => g1.refs = g.refs) (fun g1 s h => (addCp_refs _ _ _ _).trans h)
          (fun g1 f l h => (addRange_refs _ _ _ _ _).trans h) _ rfl
  | delTag t => exact Or.inl rfl
  | addReference v k i =>
    right
    refine ⟨.add v k i, ?_⟩
    simp only [LGR.step, LGR.addReference, RefManager.step]
    cases hr : g.refs.addReference ctx.valid v k i <;> rfl
  | delReference i =>
    right
    refine ⟨.del i, ?_⟩
    simp only [LGR.step, LGR.delReference, RefManager.step]
    cases hr : g.refs.delReference ctx.pyInt i <;> rfl
  | setRaise b => exact Or.inl rfl

theorem step_refs_nodup (ctx : Ctx) (g : LGR) (op : LGR.Op) (h : (g.refs.refs.map Prod.fst).Nodup) :
    ((LGR.step ctx g op).1.refs.refs.map Prod.fst).Nodup := by
  rcases step_refs ctx g op with he | ⟨rop, he⟩
  · rw [he]; exact h
  · rw [he]; exact C11.step_nodup ctx.valid ctx.pyInt h rop

theorem step_wf (ctx : Ctx) (g : LGR) (op : LGR.Op) (h : WF g.rep)
    (hm : (g.refs.refs.map Prod.fst).Nodup) : WF (LGR.step ctx g op).1.rep :=
  (inv_step (fun _ _ => True) (by simp) (by simp) ctx g op ⟨h, by simp⟩ hm (by simp) (by simp)
    (by simp) (by simp) (by simp) (by simp)).wf

/-- Every history keeps the repertoire well-formed. -/
theorem run_wf (ops : List (Ctx × LGR.Op)) :
    WF (LGR.run {} ops).rep ∧ ((LGR.run {} ops).refs.refs.map Prod.fst).Nodup := by
  have : ∀ (ops : List (Ctx × LGR.Op)) (g : LGR), WF g.rep ∧ (g.refs.refs.map Prod.fst).Nodup →
      WF (LGR.run g ops).rep ∧ ((LGR.run g ops).refs.refs.map Prod.fst).Nodup := by
    intro ops
    induction ops with
    | nil => intro g h; exact h
    | cons p ops ih =>
      intro g h
      exact ih _ ⟨step_wf p.1 g p.2 h.1 h.2, step_refs_nodup p.1 g p.2 h.2⟩
  exact this ops {} ⟨wf_empty, by simp⟩

/-! ### C10 and C51 -/

/-- A call whose forced form would not store a list with duplicates. -/
def NoForcedDup : LGR.Op → Prop
  | .addCp _ o => o.force = true → o.ref.Nodup ∧ o.tag.Nodup
  | .addRange _ _ o => o.force = true → o.ref.Nodup ∧ o.tag.Nodup
  | .addVariant _ _ _ o => o.force = true → o.ref.Nodup
  | _ => True

/-- The references and tags of a character and its variants are listed once each, and the
references are defined. -/
structure Tidy (g : LGR) (c : CharObj) : Prop where
  refs : c.attrs.refs.Nodup
  tags : c.attrs.tags.Nodup
  vrefs : ∀ v ∈ c.getVariants, v.refs.Nodup
  defined : ∀ i ∈ c.attrs.refs, (dget g.refs.refs i).isSome
  vdefined : ∀ v ∈ c.getVariants, ∀ i ∈ v.refs, (dget g.refs.refs i).isSome

theorem knownRefs_nodup {g : LGR} {o : Opts} (h : o.force = false → C50.RefsOk g o)
    (hd : o.force = true → o.ref.Nodup) :
    (C50.knownRefs g o).Nodup ∧ ∀ i ∈ C50.knownRefs g o, (dget g.refs.refs i).isSome := by
  refine ⟨?_, fun i hi => by simpa using (List.mem_filter.1 hi).2⟩
  apply List.Nodup.filter
  cases hf : o.force with
  | true => exact hd hf
  | false => exact (h hf).2

theorem fresh_noVars (s : Seq) (range) (a : Attrs) :
    ({ cp := s, range := range, attrs := a } : CharObj).getVariants = [] := by
  simp [CharObj.getVariants, sortAsc]

theorem tidy_step (ctx : Ctx) (g : LGR) (op : LGR.Op) (hop : NoForcedDup op)
    (h : Inv (Tidy g) g.rep) (hm : (g.refs.refs.map Prod.fst).Nodup) :
    Inv (Tidy (LGR.step ctx g op).1) (LGR.step ctx g op).1.rep := by
  refine inv_step Tidy ?_ ?_ ctx g op h hm ?_ ?_ ?_ ?_ ?_ ?_
  · intro g g' c he hc
    exact ⟨hc.refs, hc.tags, hc.vrefs, by rw [← he]; exact hc.defined, by rw [← he]; exact hc.vdefined⟩
  · intro g c x hc
    exact ⟨hc.refs, hc.tags, by rw [fresh_noVars]; simp, hc.defined, by rw [fresh_noVars]; simp⟩
  · intro o g1 _ hcase hf s range _
    have hd : o.force = true → o.ref.Nodup ∧ o.tag.Nodup := by
      rcases hcase with ⟨arg, rfl⟩ | ⟨f, l, rfl⟩ | ⟨hn, _⟩
      · exact hop
      · exact hop
      · intro hft; rw [hn] at hft; simp at hft
    obtain ⟨k1, k2⟩ := knownRefs_nodup hf.refs (fun h => (hd h).1)
    refine ⟨k1, ?_, by rw [fresh_noVars]; simp, k2, by rw [fresh_noVars]; simp⟩
    cases hft : o.force with
    | true => exact (hd hft).2
    | false => exact hf.tags hft
  · rintro arg var t o rfl hrefs c c' _ hc _ _ hattrs hvars
    obtain ⟨k1, k2⟩ := knownRefs_nodup hrefs hop
    refine ⟨by rw [hattrs]; exact hc.refs, by rw [hattrs]; exact hc.tags, ?_,
      by rw [hattrs]; exact hc.defined, ?_⟩
    · intro v hv
      rcases hvars v hv with h1 | h1
      · exact hc.vrefs v h1
      · rw [h1]; exact k1
    · intro v hv
      rcases hvars v hv with h1 | h1
      · exact hc.vdefined v h1
      · rw [h1]; exact k2
  · intro c c' _ hc _ _ hattrs hvars
    exact ⟨by rw [hattrs]; exact hc.refs, by rw [hattrs]; exact hc.tags,
      fun v hv => hc.vrefs v (hvars v hv), by rw [hattrs]; exact hc.defined,
      fun v hv => hc.vdefined v (hvars v hv)⟩
  · intro t c _ hc
    exact ⟨hc.refs, hc.tags.erase t, hc.vrefs, hc.defined, hc.vdefined⟩
  · intro g1 hg1 c hc
    exact ⟨hc.refs, hc.tags, hc.vrefs, fun i hi => hg1 i (hc.defined i hi),
      fun v hv i hi => hg1 i (hc.vdefined v hv i hi)⟩
  · intro i g1 _ hg1 c hwf hc
    refine ⟨hc.refs.erase i, hc.tags, ?_, ?_, ?_⟩
    · intro v hv
      obtain ⟨u, hu, rfl⟩ := (mem_delReference i hwf v).1 hv
      exact (hc.vrefs u hu).erase i
    · intro j hj
      have hj := (List.Nodup.mem_erase_iff hc.refs).1 hj
      exact (hg1 j).2 ⟨hc.defined j hj.2, hj.1⟩
    · intro v hv j hj
      obtain ⟨u, hu, rfl⟩ := (mem_delReference i hwf v).1 hv
      have hj := (List.Nodup.mem_erase_iff (hc.vrefs u hu)).1 hj
      exact (hg1 j).2 ⟨hc.vdefined u hu j hj.2, hj.1⟩

theorem tidy_run (ops : List (Ctx × LGR.Op)) (hop : ∀ p ∈ ops, NoForcedDup p.2) :
    Inv (Tidy (LGR.run {} ops)) (LGR.run {} ops).rep := by
  have : ∀ (ops : List (Ctx × LGR.Op)) (g : LGR), (∀ p ∈ ops, NoForcedDup p.2) →
      Inv (Tidy g) g.rep → (g.refs.refs.map Prod.fst).Nodup →
      Inv (Tidy (LGR.run g ops)) (LGR.run g ops).rep := by
    intro ops
    induction ops with
    | nil => intro g _ h _; exact h
    | cons p ops ih =>
      intro g hop h hm
      exact ih _ (fun q hq => hop q (by simp [hq])) (tidy_step p.1 g p.2 (hop p (by simp)) h hm)
        (step_refs_nodup p.1 g p.2 hm)
  refine this ops {} hop ⟨wf_empty, ?_⟩ (by simp)
  intro k c hc
  cases k with
  | nil => simp at hc
  | cons i t => simp [lookup, bucket, dget] at hc

/-- A reference identifier is mentioned by a character or one of its variants. -/
def Mentions (g : LGR) (i : String) : Prop :=
  ∃ k c, g.rep.lookup k = some c ∧ (i ∈ c.attrs.refs ∨ ∃ v ∈ c.getVariants, i ∈ v.refs)

namespace C51

/-- **C51, partial** After any history without forced duplicate lists, every reference mentioned by a
character or a variant is defined. Missing: histories with a forced duplicate, see `dangling`. -/
theorem mentioned_defined_partial (ops : List (Ctx × LGR.Op)) (hop : ∀ p ∈ ops, NoForcedDup p.2)
    (i : String) (h : Mentions (LGR.run {} ops) i) :
    (dget (LGR.run {} ops).refs.refs i).isSome := by
  obtain ⟨k, c, hc, hm⟩ := h
  have ht := (tidy_run ops hop).all k c hc
  rcases hm with hm | ⟨v, hv, hm⟩
  · exact ht.defined i hm
  · exact ht.vdefined v hv i hm

/-- **C51, partial** Under the same condition a raising `del_reference` changes nothing observable,
although the code edits the repertoire before the manager raises. -/
theorem del_reference_atomic_partial (ops : List (Ctx × LGR.Op)) (hop : ∀ p ∈ ops, NoForcedDup p.2)
    (ctx : Ctx) (i : String) (e : Err)
    (h : (LGR.step ctx (LGR.run {} ops) (.delReference i)).2 = .error e) :
    e = .referenceNotDefined i ∧
    (LGR.step ctx (LGR.run {} ops) (.delReference i)).1.refs = (LGR.run {} ops).refs ∧
    (∀ k, (LGR.step ctx (LGR.run {} ops) (.delReference i)).1.rep.lookup k =
      (LGR.run {} ops).rep.lookup k) := by
  have ht := tidy_run ops hop
  generalize LGR.run {} ops = g at h ht
  have hlook := (inv_mapChars (F := fun c => c.delReference i) (Q := fun _ => True) ht
      (fun _ => rfl) (fun c hc => delReference_wf i hc) (by simp)).2
  simp only [LGR.step, LGR.delReference] at h ⊢
  have hn : (dget g.refs.refs i) = none ∧ e = .referenceNotDefined i := by
    by_cases hd : (dget g.refs.refs i).isNone = true
    · have he : g.refs.delReference ctx.pyInt i = .error (.referenceNotDefined i) := by
        simp [RefManager.delReference, hd]
      rw [he] at h
      simp only [Except.error.injEq] at h
      exact ⟨Option.isNone_iff_eq_none.1 hd, h.symm⟩
    · have : ∃ m, g.refs.delReference ctx.pyInt i = .ok m := by
        unfold RefManager.delReference
        rw [if_neg hd]
        simp only
        cases ctx.pyInt i with
        | none => exact ⟨_, rfl⟩
        | some k => simp only; split <;> exact ⟨_, rfl⟩
      obtain ⟨m, hm⟩ := this
      rw [hm] at h; simp at h
  have hr : g.refs.delReference ctx.pyInt i = .error (.referenceNotDefined i) := by
    simp [RefManager.delReference, hn.1]
  rw [hr]
  refine ⟨hn.2, rfl, ?_⟩
  intro k
  simp only
  rw [hlook]
  cases hk : g.rep.lookup k with
  | none => rfl
  | some c =>
    simp only [Option.map_some, Option.some.injEq]
    have hc := ht.all k c hk
    have h1 : i ∉ c.attrs.refs := by
      intro hi; have := hc.defined i hi; rw [hn.1] at this; simp at this
    have hcw := lookup_charWF ht.wf hk
    have h2 : ∀ p ∈ c.vars, ∀ v ∈ p.2, i ∉ v.refs := by
      intro p hp v hv hi
      have hd : dget c.vars v.cp = some p.2 := by
        rw [hcw.varWF.filed p hp v hv]
        exact dget_of_mem hcw.varWF.keys hp
      have := hc.vdefined v ((CharObj.mem_getVariants hcw.varWF v).2 ⟨p.2, hd, hv⟩) i hi
      rw [hn.1] at this; simp at this
    unfold CharObj.delReference
    rw [List.erase_of_not_mem h1]
    have h3 : c.vars.map (fun p => (p.1, p.2.map (fun v : Variant => { v with refs := v.refs.erase i })))
        = c.vars := by
      conv_rhs => rw [← List.map_id c.vars]
      apply List.map_congr_left
      intro p hp
      have : p.2.map (fun v : Variant => { v with refs := v.refs.erase i }) = p.2 := by
        conv_rhs => rw [← List.map_id p.2]
        apply List.map_congr_left
        intro v hv
        rw [List.erase_of_not_mem (h2 p hp v hv)]; rfl
      rw [this]; rfl
    rw [h3]

/-- **C51 fails as stated**: a duplicate accepted under `force` survives `del_reference`. -/
theorem dangling : ∃ ops i, Mentions (LGR.run {} ops) i ∧
    dget (LGR.run {} ops).refs.refs i = none := by
  let ctx : Ctx := ⟨none, fun _ => true, fun _ => none⟩
  refine ⟨[(ctx, .addReference "RFC" none (some "1")),
    (ctx, .addCp (.int 97) { ref := ["1", "1"], force := true }), (ctx, .delReference "1")], "1",
    ⟨[97], { cp := [97], attrs := { refs := ["1"] } }, by rfl, Or.inl (by simp)⟩, by rfl⟩

/-! Non-vacuity: a history meeting the condition in which a mentioned reference is deleted. -/
example : Mentions (LGR.run {} [(⟨none, fun _ => true, fun _ => none⟩,
    .addReference "RFC" none (some "1")), (⟨none, fun _ => true, fun _ => none⟩,
    .addCp (.int 97) { ref := ["1"] })]) "1" :=
  ⟨[97], { cp := [97], attrs := { refs := ["1"] } }, by rfl, Or.inl (by simp)⟩

end C51

namespace C10

/-- **C10, partial** After `del_reference` on an LGR built without forced duplicate lists, nothing
mentions the identifier and it is not defined, whether or not the call raised. -/
theorem del_reference_removes_partial (ops : List (Ctx × LGR.Op)) (hop : ∀ p ∈ ops, NoForcedDup p.2)
    (ctx : Ctx) (i : String) :
    dget (LGR.step ctx (LGR.run {} ops) (.delReference i)).1.refs.refs i = none ∧
    ¬ Mentions (LGR.step ctx (LGR.run {} ops) (.delReference i)).1 i := by
  have hd : dget (LGR.step ctx (LGR.run {} ops) (.delReference i)).1.refs.refs i = none := by
    have hm := (run_wf ops).2
    generalize LGR.run {} ops = g at hm
    simp only [LGR.step, LGR.delReference]
    cases hr : g.refs.delReference ctx.pyInt i with
    | error e =>
      simp only
      unfold RefManager.delReference at hr
      split at hr
      · rename_i hn; exact Option.isNone_iff_eq_none.1 hn
      · simp only at hr
        split at hr
        · split at hr <;> simp at hr
        · simp at hr
    | ok m =>
      simp only
      have : m.refs = ddel g.refs.refs i := by
        unfold RefManager.delReference at hr
        split at hr
        · simp at hr
        · simp only at hr
          split at hr
          · split at hr <;> · simp only [Except.ok.injEq] at hr; rw [← hr]
          · simp only [Except.ok.injEq] at hr; rw [← hr]
      rw [this, dget_ddel hm, if_pos rfl]
  refine ⟨hd, ?_⟩
  intro hmen
  have hrun : LGR.run {} (ops ++ [(ctx, .delReference i)]) =
      (LGR.step ctx (LGR.run {} ops) (.delReference i)).1 := by
    simp [LGR.run]
  have := C51.mentioned_defined_partial (ops ++ [(ctx, .delReference i)]) (by
    intro p hp
    rcases List.mem_append.1 hp with hp | hp
    · exact hop p hp
    · rw [List.mem_singleton] at hp; subst hp; trivial) i (by rw [hrun]; exact hmen)
  rw [hrun, hd] at this
  simp at this

/-- **C10** `del_reference` touches nothing but mentions of the identifier: the other references of
every character and variant stay, in order. -/
theorem del_reference_only (ops : List (Ctx × LGR.Op)) (ctx : Ctx) (i : String) (k : Seq) :
    (LGR.step ctx (LGR.run {} ops) (.delReference i)).1.rep.lookup k =
      ((LGR.run {} ops).rep.lookup k).map (fun c =>
        { c with attrs := { c.attrs with refs := c.attrs.refs.erase i },
                 vars := c.vars.map (fun p => (p.1, p.2.map (fun v =>
                   { v with refs := v.refs.erase i }))) }) := by
  have h := (run_wf ops).1
  generalize LGR.run {} ops = g at h
  have hlook := (inv_mapChars (P := fun _ => True) (F := fun c => c.delReference i)
      (Q := fun _ => True) ⟨h, by simp⟩
      (fun _ => rfl) (fun c hc => delReference_wf i hc) (by simp)).2
  have : (LGR.step ctx g (.delReference i)).1.rep = g.rep.mapChars (fun c => c.delReference i) := by
    simp only [LGR.step, LGR.delReference]; split <;> rfl
  rw [this, hlook]
  rfl

/-- **C10, partial** After `del_tag` on an LGR built without forced duplicate lists, no character
carries the tag, its class is gone, and nothing else changed. -/
theorem del_tag_removes_partial (ops : List (Ctx × LGR.Op)) (hop : ∀ p ∈ ops, NoForcedDup p.2)
    (t : String) (k : Seq) (c : CharObj)
    (h : ((LGR.run {} ops).delTag t).rep.lookup k = some c) :
    t ∉ c.attrs.tags ∧ ∃ d, (LGR.run {} ops).rep.lookup k = some d ∧
      c = { d with attrs := { d.attrs with tags := d.attrs.tags.filter (· != t) } } := by
  have ht := tidy_run ops hop
  generalize LGR.run {} ops = g at h ht
  have hlook := (inv_mapChars (F := fun c => c.delTag t) (Q := fun _ => True) ht
      (fun _ => rfl) (fun c hc => ⟨⟨hc.varWF.keys, hc.varWF.nonempty, hc.varWF.filed, hc.varWF.uniq,
        hc.varWF.range⟩, hc.rangeCp⟩) (by simp)).2
  simp only [LGR.delTag] at h
  rw [hlook] at h
  obtain ⟨d, hd, rfl⟩ := Option.map_eq_some_iff.1 h
  have hn := (ht.all k d hd).tags
  refine ⟨?_, d, hd, ?_⟩
  · intro hm
    exact ((List.Nodup.mem_erase_iff hn).1 hm).1 rfl
  · unfold CharObj.delTag
    rw [List.Nodup.erase_eq_filter hn]

/-- **C10 fails as stated**: duplicates accepted under `force` are deleted once only. -/
theorem forced_duplicates_survive :
    (∃ ops i, Mentions (LGR.run {} (ops ++ [(⟨none, fun _ => true, fun _ => none⟩,
      .delReference i)])) i) ∧
    (∃ ops t k c, ((LGR.run {} ops).delTag t).rep.lookup k = some c ∧ t ∈ c.attrs.tags) := by
  let ctx : Ctx := ⟨none, fun _ => true, fun _ => none⟩
  refine ⟨⟨[(ctx, .addReference "RFC" none (some "1")),
    (ctx, .addCp (.int 97) { ref := ["1", "1"], force := true })], "1",
    [97], { cp := [97], attrs := { refs := ["1"] } }, by rfl, Or.inl (by simp)⟩, ?_⟩
  exact ⟨[(ctx, .addCp (.int 97) { tag := ["t", "t"], force := true })], "t", [97],
    { cp := [97], attrs := { tags := ["t"] } }, by rfl, by simp⟩

/-! Non-vacuity: a tag and a reference that are really deleted. -/
example : ((LGR.run {} [(⟨none, fun _ => true, fun _ => none⟩,
    .addRange 97 99 { tag := ["t", "u"] })]).delTag "t").rep.lookup [98] =
    some { cp := [98], range := some (97, 99), attrs := { tags := ["u"] } } := by rfl

end C10
end Lgr.Props

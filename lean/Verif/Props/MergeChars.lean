import Verif.MergeSet
import Verif.Props.Compare
import Verif.Props.Populate
import Verif.Props.Xml
import Verif.Props.MergeRefs

/-!
# C45, helpers: what `merge_chars` does for one LGR
-/

namespace Lgr.Props.C45
open Lgr LGR Repertoire C50 C26 C28 Compare MergeSet

/-- No entry belongs to a range. -/
def Plain (g : LGR) : Prop := ∀ k c, g.rep.lookup k = some c → c.range = none

/-- The variant that stands for `v` in the merged LGR. -/
def ren (script : String) (f : String → String) (v : Variant) : Variant :=
  ⟨v.cp, some "blocked", preRule script v.whenR, preRule script v.notWhenR, v.comment, v.refs.map f⟩

/-- The variant added to keep transitivity. -/
def trans (y : Seq) : Variant := ⟨y, some "blocked", none, none, some transComment, []⟩

/-- The tags that an entry of an LGR of the set brings. -/
def TagOf (i : Input) (c : CharObj) (t : String) : Prop :=
  (∃ x ∈ c.attrs.tags, t = if ':' ∈ x.toList then x else pre i.script x) ∨
    ∃ a, c.cp = [a] ∧ i.db.isSome = true ∧ t ∈ i.scx a

/-! ### Loops -/

theorem forEach_cons_ok {σ α : Type} {f : σ → α → σ × Except Err Unit} {s s' : σ} {a : α} {l : List α}
    (h : forEach f s (a :: l) = (s', .ok ())) : ∃ s1, f s a = (s1, .ok ()) ∧ forEach f s1 l = (s', .ok ()) := by
  unfold forEach at h
  generalize h1 : f s a = r at h
  obtain ⟨s1, o⟩ := r
  cases o with
  | error e => simp at h
  | ok u => exact ⟨s1, rfl, h⟩

theorem addVariant_exact {g g' : LGR} (hwf : WF g.rep) {k v : Seq} {t : Option String} {o : Opts}
    (hf : o.force = false) (h : g.addVariant none (.seq k) (.seq v) t o = (g', .ok ())) :
    WF g'.rep ∧ g'.refs = g.refs ∧
    ∃ c c', g.rep.lookup k = some c ∧ c.range = none ∧ c'.range = none ∧ c'.attrs = c.attrs ∧
      (∀ u, u ∈ c'.getVariants ↔ u ∈ c.getVariants ∨ u = ⟨v, t, o.whenR, o.notWhenR, o.comment, o.ref⟩) ∧
      ∀ j, g'.rep.lookup j = if j = k then some c' else g.rep.lookup j := by
  have h1 := add_variant_effect none g hwf (.seq k) (.seq v) t o (by rw [h])
  have h2 := (add_variant_ok_iff none g hwf (.seq k) (.seq v) t o).1 (by rw [h])
  have h3 := C30.wf_addVariant (db := none) hwf (.seq k) (.seq v) t o
  rw [h] at h1 h3
  obtain ⟨s, v', c, c', e1, e2, e3, e4, -, e6, e7, e8, e9, -, -, -, e10, -⟩ := h1
  cases e1
  cases e2
  obtain ⟨_, _, _, -, -, -, -, -, -, -, -, hs⟩ := h2
  have hk : knownRefs g o = o.ref := by
    unfold knownRefs
    rw [List.filter_eq_self]
    exact (hs hf).2.1
  rw [hk] at e8
  exact ⟨h3, e10, c, c', e3, e4, e6, e7, e8, e9⟩

/-- Adding renamed variants to one entry. -/
theorem renamed_loop {script : String} {map : List (String × String)} {k : Seq} (vs : List Variant)
    {g g' : LGR} (hwf : WF g.rep) {c : CharObj} (hc : g.rep.lookup k = some c)
    (h : forEach (addRenamed script map k) g vs = (g', .ok ())) :
    WF g'.rep ∧ g'.refs = g.refs ∧
    (∃ c', g'.rep.lookup k = some c' ∧ c'.range = c.range ∧ c'.attrs = c.attrs ∧
      ∀ u, u ∈ c'.getVariants ↔ u ∈ c.getVariants ∨ ∃ v ∈ vs, u = ren script (mapRef map) v) ∧
    ∀ j, j ≠ k → g'.rep.lookup j = g.rep.lookup j := by
  induction vs generalizing g c with
  | nil =>
    simp only [forEach, Prod.mk.injEq, and_true] at h
    subst h
    exact ⟨hwf, rfl, ⟨c, hc, rfl, rfl, by simp⟩, fun _ _ => rfl⟩
  | cons v vs ih =>
    obtain ⟨g1, h1, h2⟩ := forEach_cons_ok h
    obtain ⟨w1, r1, d, d', e1, e2, e3, e4, e5, e6⟩ := addVariant_exact hwf rfl h1
    rw [hc] at e1; cases e1
    obtain ⟨i1, i2, ⟨c', i3, i4, i5, i6⟩, i7⟩ := ih w1 (by rw [e6, if_pos rfl]) h2
    refine ⟨i1, i2.trans r1, ⟨c', i3, i4.trans (e3.trans e2.symm), i5.trans e4, ?_⟩, ?_⟩
    · intro u
      rw [i6, e5]
      simp only [List.mem_cons, exists_eq_or_imp]
      unfold ren
      tauto
    · intro j hj
      rw [i7 j hj, e6, if_neg hj]

/-- Adding variants in both directions. -/
theorem both_loop (ps : List (Seq × Seq)) {g g' : LGR} (hwf : WF g.rep) (hp : Plain g)
    (h : forEach addBoth g ps = (g', .ok ())) :
    WF g'.rep ∧ g'.refs = g.refs ∧ Plain g' ∧
    (∀ k, In g' k ↔ In g k) ∧
    ∀ k c', g'.rep.lookup k = some c' → ∃ c, g.rep.lookup k = some c ∧ c'.attrs = c.attrs ∧
      ∀ u, u ∈ c'.getVariants ↔ u ∈ c.getVariants ∨ ∃ y, u = trans y ∧ ((k, y) ∈ ps ∨ (y, k) ∈ ps) := by
  induction ps generalizing g with
  | nil =>
    simp only [forEach, Prod.mk.injEq, and_true] at h
    subst h
    exact ⟨hwf, rfl, hp, fun _ => Iff.rfl, fun k c hc => ⟨c, hc, rfl, by simp⟩⟩
  | cons p ps ih =>
    obtain ⟨a, b⟩ := p
    obtain ⟨g1, h1, h2⟩ := forEach_cons_ok h
    unfold addBoth at h1
    generalize ha : g.addVariant none (.seq a) (.seq b) (some "blocked") { comment := some transComment } = r
      at h1
    obtain ⟨g0, o⟩ := r
    cases o with
    | error e => simp at h1
    | ok u =>
      simp only at h1
      obtain ⟨w0, r0, c0, c0', e1, e2, e3, e4, e5, e6⟩ := addVariant_exact hwf rfl ha
      obtain ⟨w1, r1, c1, c1', f1, f2, f3, f4, f5, f6⟩ := addVariant_exact w0 rfl h1
      have hp1 : Plain g1 := by
        intro k c hk
        rw [f6] at hk
        split at hk
        · cases hk; exact f3
        · rw [e6] at hk
          split at hk
          · cases hk; exact e3
          · exact hp k c hk
      obtain ⟨i1, i2, i3, i4, i5⟩ := ih w1 hp1 h2
      refine ⟨i1, i2.trans (r1.trans r0), i3, ?_, ?_⟩
      · intro k
        rw [i4]
        unfold In
        rw [f6]
        split
        · rename_i hk
          subst hk
          rw [e6] at f1
          split at f1
          · rename_i hk; rw [← hk] at e1; simp [e1]
          · simp [f1]
        · rw [e6]
          split
          · rename_i hk; rw [hk]; simp [e1]
          · rfl
      · intro k c' hk
        obtain ⟨c2, j1, j2, j3⟩ := i5 k c' hk
        have step : ∃ c, g.rep.lookup k = some c ∧ c2.attrs = c.attrs ∧
            ∀ u, u ∈ c2.getVariants ↔ u ∈ c.getVariants ∨ ∃ y, u = trans y ∧ ((k, y) = (a, b) ∨ (y, k) = (a, b)) := by
          rw [f6] at j1
          by_cases hb : k = b
          · rw [if_pos hb] at j1
            cases j1
            rw [e6] at f1
            by_cases hba : b = a
            · rw [if_pos hba] at f1
              cases f1
              refine ⟨c0, by rw [hb, hba]; exact e1, f4.trans e4, ?_⟩
              intro u
              rw [f5, e5]
              simp only [Prod.mk.injEq, hb, hba, trans]
              constructor
              · rintro ((h | h) | h)
                · exact .inl h
                · exact .inr ⟨a, by rw [h], by simp⟩
                · exact .inr ⟨a, by rw [h], by simp⟩
              · rintro (h | ⟨y, h, hy⟩)
                · exact .inl (.inl h)
                · have : y = a := by tauto
                  rw [this] at h
                  exact .inr h
            · rw [if_neg hba] at f1
              refine ⟨c1, by rw [hb]; exact f1, f4, ?_⟩
              intro u
              rw [f5]
              simp only [Prod.mk.injEq, hb, hba, trans, false_and, false_or, and_true]
              constructor
              · rintro (h | h)
                · exact .inl h
                · exact .inr ⟨a, h, rfl⟩
              · rintro (hh | ⟨y, hh, hy⟩)
                · exact .inl hh
                · rw [hy] at hh; exact .inr hh
          · rw [if_neg hb, e6] at j1
            by_cases hka : k = a
            · rw [if_pos hka] at j1
              cases j1
              refine ⟨c0, by rw [hka]; exact e1, e4, ?_⟩
              intro u
              rw [e5]
              have hab : a ≠ b := fun h => hb (hka.trans h)
              simp only [Prod.mk.injEq, hka, hab, trans, and_false, or_false, true_and]
              constructor
              · rintro (h | h)
                · exact .inl h
                · exact .inr ⟨b, h, rfl⟩
              · rintro (hh | ⟨y, hh, hy⟩)
                · exact .inl hh
                · rw [hy] at hh; exact .inr hh
            · rw [if_neg hka] at j1
              refine ⟨c2, j1, rfl, ?_⟩
              intro u
              simp [hka, hb]
        obtain ⟨c, s1, s2, s3⟩ := step
        refine ⟨c, s1, j2.trans s2, ?_⟩
        intro u
        rw [j3, s3]
        constructor
        · rintro ((h | ⟨y, h, hy⟩) | ⟨y, h, hy⟩)
          · exact .inl h
          · exact .inr ⟨y, h, by rcases hy with hy | hy <;> simp [hy]⟩
          · exact .inr ⟨y, h, by rcases hy with hy | hy <;> simp [hy]⟩
        · rintro (h | ⟨y, h, hy⟩)
          · exact .inl (.inl h)
          · simp only [List.mem_cons] at hy
            rcases hy with (hy | hy) | (hy | hy)
            · exact .inl (.inr ⟨y, h, .inl hy⟩)
            · exact .inr ⟨y, h, .inl hy⟩
            · exact .inl (.inr ⟨y, h, .inr hy⟩)
            · exact .inr ⟨y, h, .inr hy⟩

/-! ### Sets -/

theorem mem_varDiff {a b : List Variant} (ha : (a.map Variant.key).Nodup) (v : Variant) :
    v ∈ varDiff a b ↔ v ∈ a ∧ v.key ∉ b.map Variant.key := by
  unfold varDiff
  rw [C30.toSet_nodup _ a ha, List.mem_filter]
  simp

theorem mem_dropReflexive (ord : SetOrder) {cp : Seq} {s : List Variant} {v : Variant}
    (h : v ∈ dropReflexive ord cp s) : v ∈ s := by
  unfold dropReflexive at h
  split at h
  · exact (List.mem_filter.1 h).1
  · exact h

theorem mem_newTags (i : Input) (c : CharObj) (t : String) : t ∈ newTags i c ↔ TagOf i c t := by
  have := C30.addNew_keys id
    (if c.cp.length = 1 ∧ i.db.isSome then toSet id (i.scx (c.cp.headD 0)) else [])
    (toSet id (c.attrs.tags.map (fun x => if ':' ∈ x.toList then x else pre i.script x))) t
  simp only [List.map_id_fun, id_eq] at this
  unfold newTags TagOf
  rw [this, C30.mem_toSet, List.mem_map]
  refine or_congr ⟨?_, ?_⟩ ?_
  · rintro ⟨x, hx, rfl⟩; exact ⟨x, hx, rfl⟩
  · rintro ⟨x, hx, rfl⟩; exact ⟨x, hx, rfl⟩
  · split
    · rename_i hc
      rw [C30.mem_toSet]
      obtain ⟨a, ha⟩ := List.length_eq_one_iff.1 hc.1
      constructor
      · intro h; exact ⟨a, ha, hc.2, by simpa [ha] using h⟩
      · rintro ⟨b, hb, -, h⟩
        simpa [hb] using h
    · rename_i hc
      constructor
      · simp
      · rintro ⟨a, ha, hd, -⟩
        exact absurd ⟨by simp [ha], hd⟩ hc

theorem newTags_nodup (i : Input) (c : CharObj) : (newTags i c).Nodup := by
  have := C30.addNew_nodup_keys id
    (if c.cp.length = 1 ∧ i.db.isSome then toSet id (i.scx (c.cp.headD 0)) else [])
    (toSet id (c.attrs.tags.map (fun x => if ':' ∈ x.toList then x else pre i.script x)))
    (by simpa using C30.nodup_toSet _)
  simpa [newTags] using this

/-! ### One code point -/

/-- What the merged LGR has for a code point of the LGR; `old` is what it had. -/
structure Joined (i : Input) (f : String → String) (prev : List String) (old : Option CharObj) (c e : CharObj) :
    Prop where
  range : e.range = none
  tags : ∀ t, t ∈ e.attrs.tags ↔ (∃ o, old = some o ∧ t ∈ o.attrs.tags) ∨ TagOf i c t
  tagsNodup : e.attrs.tags.Nodup
  vars : ∀ u, u ∈ e.getVariants ↔ (∃ o, old = some o ∧ u ∈ o.getVariants) ∨
    ∃ v ∈ c.getVariants, u = ren i.script f v ∧
      ∀ o, old = some o → ∀ w ∈ o.getVariants, w.key ≠ v.key
  new : old = none → e.attrs.refs = c.attrs.refs.map f ∧ e.attrs.comment = c.attrs.comment ∧
    e.attrs.whenR = preRule i.script c.attrs.whenR ∧ e.attrs.notWhenR = preRule i.script c.attrs.notWhenR
  both : ∀ o, old = some o → (∀ r, r ∈ e.attrs.refs ↔ r ∈ o.attrs.refs ∨ r ∈ c.attrs.refs) ∧
    e.attrs.comment = letUserChoose o.attrs.comment c.attrs.comment ∧
    (mergeRule i.script prev o.attrs.whenR c.attrs.whenR).map Prod.fst = some e.attrs.whenR ∧
    (mergeRule i.script prev o.attrs.notWhenR c.attrs.notWhenR).map Prod.fst = some e.attrs.notWhenR

theorem mergeNew_spec {ord : SetOrder} {i : Input} {map : List (String × String)} {prev : List String}
    {s s' : CState} {c : CharObj}
    (hwf : WF s.1.lgr.rep) (h : mergeNew ord i map s c = (s', .ok ())) :
    WF s'.1.lgr.rep ∧ s'.1.lgr.refs = s.1.lgr.refs ∧ s'.2 = s.2 ∧ s'.1.rules = s.1.rules ∧
      s.1.lgr.rep.lookup c.cp = none ∧
      (∃ e, s'.1.lgr.rep.lookup c.cp = some e ∧ Joined i (mapRef map) prev none c e) ∧
      ∀ j, j ≠ c.cp → s'.1.lgr.rep.lookup j = s.1.lgr.rep.lookup j := by
  unfold mergeNew at h
  split at h
  · simp at h
  rename_i g ha
  generalize hb : forEach (addRenamed i.script map c.cp) g c.getVariants = r at h
  obtain ⟨g2, o⟩ := r
  simp only [Prod.mk.injEq] at h
  obtain ⟨rfl, rfl⟩ := h
  have h1 := add_cp_effect none _ _ _ (by rw [ha])
  have h2 := (add_cp_ok_iff none _ _ _).1 (by rw [ha])
  have hw := C30.wf_addCp (db := none) hwf (.seq c.cp)
    { comment := c.attrs.comment, ref := c.attrs.refs.map (mapRef map), tag := ord.strs (newTags i c),
      whenR := preRule i.script c.attrs.whenR, notWhenR := preRule i.script c.attrs.notWhenR }
  rw [ha] at h1 hw
  obtain ⟨k, hk, hn, hl, -, -, hrf, -⟩ := h1
  cases hk
  obtain ⟨_, -, -, -, -, hs⟩ := h2
  have hkr : knownRefs s.1.lgr
      { comment := c.attrs.comment, ref := c.attrs.refs.map (mapRef map), tag := ord.strs (newTags i c),
        whenR := preRule i.script c.attrs.whenR, notWhenR := preRule i.script c.attrs.notWhenR } =
      c.attrs.refs.map (mapRef map) := by
    unfold knownRefs
    rw [List.filter_eq_self]
    exact (hs rfl).1.2.1
  rw [hkr] at hl
  obtain ⟨i1, i2, ⟨c', i3, i4, i5, i6⟩, i7⟩ := renamed_loop _ hw (by rw [hl, if_pos rfl]) hb
  refine ⟨i1, i2.trans hrf, rfl, rfl, hn, ⟨c', i3, ?_⟩, ?_⟩
  · refine ⟨i4, ?_, ?_, ?_, ?_, by simp⟩
    · intro t
      rw [i5]
      simp [(ord.strs_perm _).mem_iff, mem_newTags]
    · rw [i5]
      exact ((ord.strs_perm _).nodup_iff).2 (newTags_nodup i c)
    · intro u
      rw [i6]
      simp [C30.new_vars]
    · intro _
      rw [i5]
      exact ⟨rfl, rfl, rfl, rfl⟩
  · intro j hj
    rw [i7 j hj, hl, if_neg hj]

theorem charWF_attrs {c : CharObj} (h : CharWF c) (a : Attrs) : CharWF { c with attrs := a } :=
  ⟨by obtain ⟨a, b, c, d, e⟩ := h.varWF; exact ⟨a, b, c, d, e⟩, h.rangeCp⟩

theorem put_attrs {r : Repertoire} (h : WF r) {k : Seq} {e : CharObj} (he : r.lookup k = some e) (a : Attrs) :
    WF (r.putChar { e with attrs := a }) ∧
    ∀ j, (r.putChar { e with attrs := a }).lookup j = if j = k then some { e with attrs := a } else r.lookup j := by
  have hcp := lookup_cp he
  refine ⟨putChar_wf h (charWF_attrs (lookup_charWF h he) a), ?_⟩
  intro j
  rw [lookup_putChar (by simp [hcp, he])]
  simp only [hcp]

/-- The rules that the merge of a code point asks for are in `rules`. -/
def Ruled (i : Input) (prev : List String) (old : Option CharObj) (c : CharObj) (rules : List String) : Prop :=
  ∀ o, old = some o → ∀ w p, mergeRule i.script prev o.attrs.whenR c.attrs.whenR = some (w, some p) ∨
    mergeRule i.script prev o.attrs.notWhenR c.attrs.notWhenR = some (w, some p) →
    p.2 ∈ i.rules → p.2 ≠ "" → ruleName p.1 p.2 ∈ rules

theorem mergeRules_spec (rules : List String) (script : String) (specific : Option String) (done : List String) :
    (∀ x ∈ done, x ∈ mergeRules rules script specific done) ∧
      (∀ n ∈ rules, (truthy specific = false ∨ specific = some n) →
        ruleName script n ∈ mergeRules rules script specific done) ∧
      ∀ x ∈ mergeRules rules script specific done, x ∈ done ∨ ∃ n ∈ rules, x = ruleName script n := by
  unfold mergeRules
  induction rules generalizing done with
  | nil => simp
  | cons n rules ih =>
    rw [List.foldl_cons]
    generalize hd : (if (truthy specific && specific ≠ some n) = true then done
      else if ruleName script n ∈ done then done else done ++ [ruleName script n]) = d
    have hd' : (∀ x ∈ done, x ∈ d) ∧ ((truthy specific = false ∨ specific = some n) → ruleName script n ∈ d) ∧
        ∀ x ∈ d, x ∈ done ∨ x = ruleName script n := by
      rw [← hd]
      split
      · rename_i h
        refine ⟨fun _ h => h, fun h' => ?_, fun _ h => .inl h⟩
        simp only [ne_eq, decide_not, Bool.and_eq_true, Bool.not_eq_eq_eq_not, Bool.not_true,
          decide_eq_false_iff_not] at h
        rcases h' with h' | h'
        · rw [h'] at h; simp at h
        · exact absurd h' h.2
      · split
        · rename_i h; exact ⟨fun _ h => h, fun _ => h, fun _ h => .inl h⟩
        · refine ⟨fun x hx => by simp [hx], fun _ => by simp, fun x hx => ?_⟩
          simpa using hx
    obtain ⟨i1, i2, i3⟩ := ih d
    refine ⟨fun x hx => i1 x (hd'.1 x hx), ?_, ?_⟩
    · intro k hk hs
      rcases List.mem_cons.1 hk with rfl | hk
      · exact i1 _ (hd'.2.1 hs)
      · exact i2 k hk hs
    · intro x hx
      rcases i3 x hx with h | ⟨k, hk, h⟩
      · rcases hd'.2.2 x h with h | h
        · exact .inl h
        · exact .inr ⟨n, by simp, h⟩
      · exact .inr ⟨k, by simp [hk], h⟩

theorem addRule_spec (rules done : List String) (r : Option (String × String)) :
    (∀ x ∈ done, x ∈ addRule rules done r) ∧
      ∀ p, r = some p → p.2 ∈ rules → ruleName p.1 p.2 ∈ addRule rules done r := by
  cases r with
  | none => exact ⟨fun _ h => h, by simp⟩
  | some p =>
    obtain ⟨h1, h2, -⟩ := mergeRules_spec rules p.1 (some p.2) done
    refine ⟨h1, ?_⟩
    rintro q ⟨⟩ hq
    exact h2 _ hq (.inr rfl)

theorem mergeExisting_spec {ord : SetOrder} {i : Input} {map : List (String × String)} {prev : List String}
    {s s' : CState} {e c : CharObj} (hwf : WF s.1.lgr.rep) (he : s.1.lgr.rep.lookup c.cp = some e)
    (her : e.range = none) (hcw : CharWF c)
    (h : mergeExisting ord i map prev s e c = (s', .ok ())) :
    WF s'.1.lgr.rep ∧ s'.1.lgr.refs = s.1.lgr.refs ∧
      ((∀ x ∈ s.1.rules, x ∈ s'.1.rules) ∧ Ruled i prev (some e) c s'.1.rules) ∧
      (∀ p ∈ s'.2, p ∈ s.2 ∨ (∀ v ∈ p.1, v ∈ c.getVariants) ∧ ∀ v ∈ p.2, v ∈ e.getVariants) ∧
      (∃ e', s'.1.lgr.rep.lookup c.cp = some e' ∧ Joined i (mapRef map) prev (some e) c e') ∧
      ∀ j, j ≠ c.cp → s'.1.lgr.rep.lookup j = s.1.lgr.rep.lookup j := by
  have hcp : e.cp = c.cp := lookup_cp he
  have hkc := C34.variants_keys hcw.varWF
  have hke := C34.variants_keys (lookup_charWF hwf he).varWF
  unfold mergeExisting at h
  simp only at h
  generalize hA : ({ e.attrs with
      comment := letUserChoose e.attrs.comment c.attrs.comment,
      tags := ord.strs (addNew id (newTags i c) (toSet id e.attrs.tags)),
      refs := ord.strs (addNew id (toSet id c.attrs.refs) (toSet id e.attrs.refs)) } : Attrs) = A at h
  obtain ⟨w1, l1⟩ := put_attrs hwf he A
  generalize hb : forEach (addRenamed i.script map e.cp)
    { s.1.lgr with rep := s.1.lgr.rep.putChar { e with attrs := A } }
    (ord.vars (varDiff c.getVariants e.getVariants)) = r at h
  obtain ⟨g2, o⟩ := r
  cases o with
  | error er => simp at h
  | ok u =>
    simp only at h
    obtain ⟨i1, i2, ⟨e2, i3, i4, i5, i6⟩, i7⟩ :=
      renamed_loop _ (g := { s.1.lgr with rep := s.1.lgr.rep.putChar { e with attrs := A } }) w1
        (c := { e with attrs := A })
        (by show (s.1.lgr.rep.putChar _).lookup e.cp = _; rw [l1, if_pos hcp]) hb
    rw [i3] at h
    simp only at h
    cases hm1 : mergeRule i.script prev e2.attrs.whenR c.attrs.whenR with
    | none => rw [hm1] at h; simp at h
    | some p1 =>
      obtain ⟨w, r1⟩ := p1
      rw [hm1] at h
      simp only at h
      cases hm2 : mergeRule i.script prev e2.attrs.notWhenR c.attrs.notWhenR with
      | none => rw [hm2] at h; simp at h
      | some p2 =>
        obtain ⟨n, r2⟩ := p2
        rw [hm2] at h
        simp only [Prod.mk.injEq, and_true] at h
        subst h
        simp only
        obtain ⟨w3, l3⟩ := put_attrs i1 i3 { e2.attrs with whenR := w }
        obtain ⟨w4, l4⟩ := put_attrs w3 (k := e.cp) (by rw [l3, if_pos rfl])
          { e2.attrs with whenR := w, notWhenR := n }
        have hA2 : e2.attrs = A := i5
        refine ⟨w4, i2, ?_, ?_, ⟨{ e2 with attrs := { e2.attrs with whenR := w, notWhenR := n } }, ?_, ?_⟩, ?_⟩
        · obtain ⟨a1, a2⟩ := addRule_spec i.rules s.1.rules r1
          obtain ⟨b1, b2⟩ := addRule_spec i.rules (addRule i.rules s.1.rules r1) r2
          refine ⟨fun x hx => b1 x (a1 x hx), ?_⟩
          rintro o ⟨⟩ x p hx hp -
          have hw0 : A.whenR = e.attrs.whenR := by rw [← hA]
          have hn0 : A.notWhenR = e.attrs.notWhenR := by rw [← hA]
          rw [← hw0, ← hn0, ← hA2, hm1, hm2] at hx
          simp only [Option.some.injEq, Prod.mk.injEq] at hx
          rcases hx with ⟨-, hx⟩ | ⟨-, hx⟩
          · exact b1 _ (a2 p hx hp)
          · exact b2 p hx hp
        · intro p hp
          split at hp
          · rcases List.mem_append.1 hp with hp | hp
            · exact .inl hp
            · rw [List.mem_singleton] at hp
              subst hp
              refine .inr ⟨fun v hv => ?_, fun v hv => ?_⟩
              · exact ((mem_varDiff hkc v).1 (mem_dropReflexive ord hv)).1
              · exact ((mem_varDiff hke v).1 (mem_dropReflexive ord hv)).1
          · exact .inl hp
        · rw [l4, if_pos hcp.symm]
        · refine ⟨i4.trans her, ?_, ?_, ?_, by simp, ?_⟩
          · intro t
            simp only [hA2, ← hA, (ord.strs_perm _).mem_iff]
            have := C30.addNew_keys id (newTags i c) (toSet id e.attrs.tags) t
            simp only [List.map_id_fun, id_eq, C30.mem_toSet] at this
            rw [this, mem_newTags]
            simp
          · simp only [hA2, ← hA]
            rw [(ord.strs_perm _).nodup_iff]
            have := C30.addNew_nodup_keys id (newTags i c) (toSet id e.attrs.tags)
              (by simpa using C30.nodup_toSet _)
            simpa using this
          · intro u
            have : u ∈ CharObj.getVariants { e2 with attrs := { e2.attrs with whenR := w, notWhenR := n } } ↔
              u ∈ e2.getVariants := Iff.rfl
            rw [this, i6]
            simp only [(ord.vars_perm _).mem_iff, mem_varDiff hkc, Option.some.injEq, exists_eq_left', forall_eq']
            refine or_congr Iff.rfl ⟨?_, ?_⟩
            · rintro ⟨v, ⟨h1, h2⟩, rfl⟩
              exact ⟨v, h1, rfl, fun x hx hxe => h2 (hxe ▸ List.mem_map_of_mem hx)⟩
            · rintro ⟨v, h1, rfl, h2⟩
              refine ⟨v, ⟨h1, ?_⟩, rfl⟩
              rw [List.mem_map]
              rintro ⟨x, hx, hxe⟩
              exact h2 x hx hxe
          · rintro o ⟨⟩
            have hw0 : A.whenR = e.attrs.whenR := by rw [← hA]
            have hn0 : A.notWhenR = e.attrs.notWhenR := by rw [← hA]
            refine ⟨?_, ?_, ?_, ?_⟩
            · intro r
              simp only [hA2, ← hA, (ord.strs_perm _).mem_iff, C30.mem_union]
            · simp only [hA2, ← hA]
            · rw [← hw0, ← hA2, hm1]; rfl
            · rw [← hn0, ← hA2, hm2]; rfl
        · intro j hj
          rw [← hcp] at hj
          rw [l4, if_neg hj, l3, if_neg hj, i7 j hj, l1, if_neg (by rw [← hcp]; exact hj)]

/-! ### The code points of one LGR -/

/-- The loop over the code points. -/
structure Looped (i : Input) (f : String → String) (prev : List String) (g0 : LGR) (r0 : List String)
    (all ds : List CharObj) (s : CState) : Prop where
  rules0 : ∀ x ∈ r0, x ∈ s.1.rules
  rules : ∀ c ∈ ds, Ruled i prev (g0.rep.lookup c.cp) c s.1.rules
  wf : WF s.1.lgr.rep
  refs : s.1.lgr.refs = g0.refs
  done : ∀ c ∈ ds, ∃ e, s.1.lgr.rep.lookup c.cp = some e ∧ Joined i f prev (g0.rep.lookup c.cp) c e
  rest : ∀ k, k ∉ ds.map CharObj.cp → s.1.lgr.rep.lookup k = g0.rep.lookup k
  pend : ∀ p ∈ s.2, ∃ c ∈ all, ∃ o, g0.rep.lookup c.cp = some o ∧
    (∀ v ∈ p.1, v ∈ c.getVariants) ∧ ∀ v ∈ p.2, v ∈ o.getVariants

theorem chars_loop {ord : SetOrder} {i : Input} {map : List (String × String)} {prev : List String}
    {g0 : LGR} {r0 : List String} (hp0 : Plain g0) (hw0 : WF g0.rep) (all : List CharObj) (cs ds : List CharObj)
    (hsub : ∀ c ∈ cs, c ∈ all) (hcw : ∀ c ∈ cs, CharWF c)
    (hn : ((ds ++ cs).map CharObj.cp).Nodup) {s s' : CState} (hs : Looped i (mapRef map) prev g0 r0 all ds s)
    (h : forEach (mergeChar ord i map prev (cps g0)) s cs = (s', .ok ())) :
    Looped i (mapRef map) prev g0 r0 all (ds ++ cs) s' := by
  induction cs generalizing ds s with
  | nil =>
    simp only [forEach, Prod.mk.injEq, and_true] at h
    subst h
    simpa using hs
  | cons c cs ih =>
    obtain ⟨s1, h1, h2⟩ := forEach_cons_ok h
    have hc : c.cp ∉ ds.map CharObj.cp := by
      intro hm
      rw [List.map_append, List.nodup_append] at hn
      exact hn.2.2 _ hm _ (by simp) rfl
    have key : WF s1.1.lgr.rep ∧ s1.1.lgr.refs = s.1.lgr.refs ∧
        ((∀ x ∈ s.1.rules, x ∈ s1.1.rules) ∧ Ruled i prev (g0.rep.lookup c.cp) c s1.1.rules) ∧
        (∀ p ∈ s1.2, p ∈ s.2 ∨ ∃ o, g0.rep.lookup c.cp = some o ∧ (∀ v ∈ p.1, v ∈ c.getVariants) ∧
          ∀ v ∈ p.2, v ∈ o.getVariants) ∧
        (∃ e, s1.1.lgr.rep.lookup c.cp = some e ∧ Joined i (mapRef map) prev (g0.rep.lookup c.cp) c e) ∧
        ∀ j, j ≠ c.cp → s1.1.lgr.rep.lookup j = s.1.lgr.rep.lookup j := by
      unfold mergeChar at h1
      split at h1
      · split at h1
        · rename_i e he
          have he0 : g0.rep.lookup c.cp = some e := by rw [← hs.rest _ hc]; exact he
          obtain ⟨k1, k2, kr, k3, k4, k5⟩ := mergeExisting_spec hs.wf he (hp0 _ _ he0) (hcw c (by simp)) h1
          rw [he0]
          refine ⟨k1, k2, kr, ?_, k4, k5⟩
          intro p hp
          rcases k3 p hp with h3 | h3
          · exact .inl h3
          · exact .inr ⟨e, rfl, h3⟩
        · obtain ⟨k1, k2, k3, kr, k4, k5, k6⟩ := mergeNew_spec (prev := prev) hs.wf h1
          rw [hs.rest _ hc] at k4
          rw [k4]
          exact ⟨k1, k2, ⟨fun x hx => by rw [kr]; exact hx, by rintro o ⟨⟩⟩, fun p hp => .inl (k3 ▸ hp), k5, k6⟩
      · obtain ⟨k1, k2, k3, kr, k4, k5, k6⟩ := mergeNew_spec (prev := prev) hs.wf h1
        rw [hs.rest _ hc] at k4
        rw [k4]
        exact ⟨k1, k2, ⟨fun x hx => by rw [kr]; exact hx, by rintro o ⟨⟩⟩, fun p hp => .inl (k3 ▸ hp), k5, k6⟩
    obtain ⟨k1, k2, ⟨kr1, kr2⟩, k3, ⟨e, k4, k5⟩, k6⟩ := key
    have hs1 : Looped i (mapRef map) prev g0 r0 all (ds ++ [c]) s1 := by
      refine ⟨fun x hx => kr1 x (hs.rules0 x hx), ?_, k1, k2.trans hs.refs, ?_, ?_, ?_⟩
      · intro d hd
        rcases List.mem_append.1 hd with hd | hd
        · intro o ho w p h1 h2 h3
          exact kr1 _ (hs.rules d hd o ho w p h1 h2 h3)
        · rw [List.mem_singleton] at hd
          subst hd
          exact kr2
      · intro d hd
        rcases List.mem_append.1 hd with hd | hd
        · obtain ⟨x, hx, hj⟩ := hs.done d hd
          refine ⟨x, ?_, hj⟩
          rw [k6 d.cp (fun he => hc (he ▸ List.mem_map_of_mem hd))]
          exact hx
        · rw [List.mem_singleton] at hd
          subst hd
          exact ⟨e, k4, k5⟩
      · intro k hk
        rw [List.map_append, List.mem_append, not_or] at hk
        rw [k6 k (by simpa using hk.2), hs.rest k hk.1]
      · intro p hp
        rcases k3 p hp with h3 | ⟨o, h3, h4⟩
        · exact hs.pend p h3
        · exact ⟨c, hsub c (by simp), o, h3, h4⟩
    have := ih (ds ++ [c]) (fun d hd => hsub d (by simp [hd])) (fun d hd => hcw d (by simp [hd]))
      (by simpa using hn) hs1 h2
    simpa using this

/-- What `merge_chars` does. -/
structure Round (i : Input) (f : String → String) (prev : List String) (src g0 g1 : LGR) : Prop where
  wf : WF g1.rep
  plain : Plain g1
  refs : g1.refs = g0.refs
  node : ∀ k, In g1 k ↔ In g0 k ∨ In src k
  rest : ∀ k e, src.rep.lookup k = none → g1.rep.lookup k = some e → ∃ o, g0.rep.lookup k = some o ∧
    e.attrs = o.attrs ∧ (∀ u ∈ o.getVariants, u ∈ e.getVariants) ∧
    ∀ u ∈ e.getVariants, u ∈ o.getVariants ∨ ∃ y, u = trans y
  done : ∀ k c e, src.rep.lookup k = some c → g1.rep.lookup k = some e →
    ∃ e0, Joined i f prev (g0.rep.lookup k) c e0 ∧ e.attrs = e0.attrs ∧
      (∀ u ∈ e0.getVariants, u ∈ e.getVariants) ∧
      ∀ u ∈ e.getVariants, u ∈ e0.getVariants ∨ ∃ y, u = trans y
  added : ∀ k e y, g1.rep.lookup k = some e → trans y ∈ e.getVariants →
    (∃ o, g0.rep.lookup k = some o ∧ trans y ∈ o.getVariants) ∨
    (∃ c, src.rep.lookup k = some c ∧ ∃ v ∈ c.getVariants, trans y = ren i.script f v) ∨
    (∃ e', g1.rep.lookup y = some e' ∧ trans k ∈ e'.getVariants) ∧
      ∃ x, Pair src x k ∧ Pair g0 x y ∨ Pair src x y ∧ Pair g0 x k

theorem mergeChars_spec {ord : SetOrder} {i : Input} {src : LGR} {map : List (String × String)}
    {prev : List String} {m m' : Merged} (hws : WF src.rep) (hps : Plain src) (hwf : WF m.lgr.rep)
    (hp : Plain m.lgr) (h : mergeChars ord i src map prev m = (m', .ok ())) :
    Round i (mapRef map) prev src m.lgr m'.lgr := by
  unfold mergeChars at h
  generalize h1 : forEach (mergeChar ord i map prev (cps m.lgr)) (m, []) src.rep.iter = r at h
  obtain ⟨s, o⟩ := r
  cases o with
  | error e => simp at h
  | ok u =>
    simp only at h
    generalize h2 : forEach addBoth s.1.lgr (s.2.flatMap (pairsOf ord)) = r at h
    obtain ⟨g, o⟩ := r
    simp only [Prod.mk.injEq] at h
    obtain ⟨rfl, rfl⟩ := h
    have L := chars_loop (i := i) (map := map) (prev := prev) (ord := ord) hp hwf src.rep.iter src.rep.iter []
      (fun _ h => h) (fun c hc => lookup_charWF hws (iter_mem hws hc)) (by simpa using iter_nodup hws)
      (s := (m, [])) (r0 := m.rules) ⟨fun _ h => h, by simp, hwf, rfl, by simp, fun _ _ => rfl, by simp⟩ h1
    simp only [List.nil_append] at L
    have hit : ∀ k c, src.rep.lookup k = some c → c ∈ src.rep.iter ∧ c.cp = k := fun k c hc =>
      ⟨mem_iter hws hc (hps k c hc), lookup_cp hc⟩
    have hnot : ∀ k, src.rep.lookup k = none → k ∉ src.rep.iter.map CharObj.cp := by
      intro k hk hm
      obtain ⟨c, hc, rfl⟩ := List.mem_map.1 hm
      rw [iter_mem hws hc] at hk
      simp at hk
    have hpl : Plain s.1.lgr := by
      intro k c hk
      cases hs : src.rep.lookup k with
      | none => rw [L.rest k (hnot k hs)] at hk; exact hp k c hk
      | some d =>
        obtain ⟨hd, rfl⟩ := hit k d hs
        obtain ⟨e, he, hj⟩ := L.done d hd
        rw [hk] at he; cases he
        exact hj.range
    obtain ⟨w, hr, hpl', hn, hb⟩ := both_loop _ L.wf hpl h2
    have hmem : ∀ a b, (a, b) ∈ s.2.flatMap (pairsOf ord) → ∃ x, Pair src x a ∧ Pair m.lgr x b := by
      intro a b hab
      obtain ⟨p, hp1, hp2⟩ := List.mem_flatMap.1 hab
      obtain ⟨c, hc, o, ho, hv1, hv2⟩ := L.pend p hp1
      unfold pairsOf at hp2
      obtain ⟨v1, h3, h4⟩ := List.mem_flatMap.1 hp2
      obtain ⟨v2, h5, h6⟩ := List.mem_map.1 h4
      cases h6
      rw [(ord.vars_perm _).mem_iff] at h3 h5
      exact ⟨c.cp, ⟨v1, ⟨c, iter_mem hws hc, hv1 v1 h3⟩, rfl⟩, ⟨v2, ⟨o, ho, hv2 v2 h5⟩, rfl⟩⟩
    have hback : ∀ a b, ((a, b) ∈ s.2.flatMap (pairsOf ord) ∨ (b, a) ∈ s.2.flatMap (pairsOf ord)) →
        In g a → ∃ e, g.rep.lookup a = some e ∧ trans b ∈ e.getVariants := by
      rintro a b hab ⟨e, he⟩
      obtain ⟨e0, -, -, h4⟩ := hb a e he
      exact ⟨e, he, (h4 _).2 (.inr ⟨b, rfl, hab⟩)⟩
    have hin : ∀ (l : List (Seq × Seq)) (g1 g2 : LGR), WF g1.rep → Plain g1 →
        forEach addBoth g1 l = (g2, .ok ()) → ∀ p ∈ l, In g1 p.1 ∧ In g1 p.2 := by
      intro l
      induction l with
      | nil => simp
      | cons q l ih =>
        intro g1 g2 hw1 hp1 hf p hpm
        obtain ⟨g3, h3, h4⟩ := forEach_cons_ok hf
        have hq : In g1 q.1 ∧ In g1 q.2 := by
          unfold addBoth at h3
          generalize ha : g1.addVariant none (.seq q.1) (.seq q.2) (some "blocked")
            { comment := some transComment } = r at h3
          obtain ⟨g0, o⟩ := r
          cases o with
          | error e => simp at h3
          | ok u =>
            simp only at h3
            obtain ⟨w0, -, c0, c0', e1, -, -, -, -, e6⟩ := addVariant_exact hw1 rfl ha
            obtain ⟨-, -, c1, c1', f1, -⟩ := addVariant_exact w0 rfl h3
            refine ⟨⟨c0, e1⟩, ?_⟩
            rw [e6] at f1
            split at f1
            · rename_i hq; rw [hq]; exact ⟨c0, e1⟩
            · exact ⟨c1, f1⟩
        rcases List.mem_cons.1 hpm with rfl | hpm
        · exact hq
        · have one : forEach addBoth g1 [q] = (g3, .ok ()) := by
            simp [forEach, h3]
          obtain ⟨w3, -, p3, n3, -⟩ := both_loop [q] hw1 hp1 one
          have := ih g3 g2 w3 p3 h4 p hpm
          rw [n3, n3] at this
          exact this
    refine ⟨w, hpl', hr.trans L.refs, ?_, ?_, ?_, ?_⟩
    · intro k
      simp only
      rw [hn]
      cases hs : src.rep.lookup k with
      | none =>
        unfold In
        rw [L.rest k (hnot k hs), hs]
        simp
      | some d =>
        obtain ⟨hd, rfl⟩ := hit k d hs
        obtain ⟨e, he, hj⟩ := L.done d hd
        exact ⟨fun _ => .inr ⟨d, hs⟩, fun _ => ⟨e, he⟩⟩
    · intro k e hs he
      obtain ⟨e0, h3, h4, h5⟩ := hb k e he
      rw [L.rest k (hnot k hs)] at h3
      refine ⟨e0, h3, h4, fun u hu => (h5 u).2 (.inl hu), fun u hu => ?_⟩
      rcases (h5 u).1 hu with h6 | ⟨y, h6, -⟩
      · exact .inl h6
      · exact .inr ⟨y, h6⟩
    · intro k c e hs he
      obtain ⟨hd, rfl⟩ := hit k c hs
      obtain ⟨e0, h3, h4, h5⟩ := hb _ e he
      obtain ⟨e1, h6, hj⟩ := L.done c hd
      rw [h3] at h6; cases h6
      refine ⟨e0, hj, h4, fun u hu => (h5 u).2 (.inl hu), fun u hu => ?_⟩
      rcases (h5 u).1 hu with h6 | ⟨y, h6, -⟩
      · exact .inl h6
      · exact .inr ⟨y, h6⟩
    · intro k e y he hu
      obtain ⟨e0, h3, h4, h5⟩ := hb k e he
      rcases (h5 _).1 hu with h6 | ⟨y', h6, h7⟩
      · cases hs : src.rep.lookup k with
        | none =>
          rw [L.rest k (hnot k hs)] at h3
          exact .inl ⟨e0, h3, h6⟩
        | some d =>
          obtain ⟨hd, rfl⟩ := hit k d hs
          obtain ⟨e1, h8, hj⟩ := L.done d hd
          rw [h3] at h8; cases h8
          rcases (hj.vars _).1 h6 with ⟨o, ho, h9⟩ | ⟨v, hv, h9, -⟩
          · exact .inl ⟨o, ho, h9⟩
          · exact .inr (.inl ⟨d, rfl, v, hv, h9⟩)
      · have hy : y' = y := by
          have := congrArg Variant.cp h6
          exact this.symm
        subst hy
        refine .inr (.inr ⟨?_, ?_⟩)
        · apply hback y' k h7.symm
          rw [hn]
          rcases h7 with h7 | h7
          · exact (hin _ _ _ L.wf hpl h2 _ h7).2
          · exact (hin _ _ _ L.wf hpl h2 _ h7).1
        · rcases h7 with h7 | h7
          · obtain ⟨x, hx⟩ := hmem _ _ h7; exact ⟨x, .inl hx⟩
          · obtain ⟨x, hx⟩ := hmem _ _ h7; exact ⟨x, .inr hx⟩

/-- The rules after `merge_chars`. -/
theorem mergeChars_rules {ord : SetOrder} {i : Input} {src : LGR} {map : List (String × String)}
    {prev : List String} {m m' : Merged} (hws : WF src.rep) (hps : Plain src) (hwf : WF m.lgr.rep)
    (hp : Plain m.lgr) (h : mergeChars ord i src map prev m = (m', .ok ())) :
    (∀ x ∈ m.rules, x ∈ m'.rules) ∧
      ∀ k c, src.rep.lookup k = some c → Ruled i prev (m.lgr.rep.lookup k) c m'.rules := by
  unfold mergeChars at h
  generalize h1 : forEach (mergeChar ord i map prev (cps m.lgr)) (m, []) src.rep.iter = r at h
  obtain ⟨s, o⟩ := r
  cases o with
  | error e => simp at h
  | ok u =>
    simp only at h
    generalize h2 : forEach addBoth s.1.lgr (s.2.flatMap (pairsOf ord)) = r at h
    obtain ⟨g, o⟩ := r
    simp only [Prod.mk.injEq] at h
    obtain ⟨rfl, rfl⟩ := h
    have L := chars_loop (i := i) (map := map) (prev := prev) (ord := ord) hp hwf src.rep.iter src.rep.iter []
      (fun _ h => h) (fun c hc => lookup_charWF hws (iter_mem hws hc)) (by simpa using iter_nodup hws)
      (s := (m, [])) (r0 := m.rules) ⟨fun _ h => h, by simp, hwf, rfl, by simp, fun _ _ => rfl, by simp⟩ h1
    simp only [List.nil_append] at L
    refine ⟨L.rules0, fun k c hc => ?_⟩
    have := L.rules c (mem_iter hws hc (hps k c hc))
    rwa [lookup_cp hc] at this

end Lgr.Props.C45

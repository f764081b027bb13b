import Verif.Props.XmlOrder
import Verif.Props.Compare

/-!
# C34: the `<data>` section read back
-/

namespace Lgr.Props.C34
open Lgr Xml Text Repertoire LGR C50 C04 C40

/-! ## What is asked of the entries -/

/-- The code points may be in an LGR: IDNA-valid, unless this is not checked. -/
def Allowed (db : UniDb) (strict : Bool) (s : Seq) : Prop :=
  strict = true → ∀ valid, db = some valid → ∀ x ∈ s, valid x = true

/-- An entry that can be written and that the parser, with this Unicode database, these references and
these flags, accepts. -/
structure Readable (db : UniDb) (strict force : Bool) (m : RefManager) (c : CharObj) : Prop where
  allowed : Allowed db strict c.cp
  refs : ∀ i ∈ c.attrs.refs, (dget m.refs i).isSome = true
  refWords : Words c.attrs.refs
  tagWords : Words c.attrs.tags
  xml : ∀ s ∈ texts c, xmlOk s = true
  plain : force = false → (c.attrs.whenR = none ∨ c.attrs.notWhenR = none) ∧ c.attrs.refs.Nodup ∧
    c.attrs.tags.Nodup ∧ (c.attrs.tags = [] ∨ c.cp.length = 1)
  vars : ∀ v ∈ c.getVariants, Allowed db strict v.cp ∧ (∀ i ∈ v.refs, (dget m.refs i).isSome = true) ∧
    Words v.refs ∧ (force = false → (v.whenR = none ∨ v.notWhenR = none) ∧ v.refs.Nodup)

/-- Two entries which no operation of an LGR tells apart: the dictionaries of variants may be ordered
differently. -/
structure Same (c d : CharObj) : Prop where
  cp : c.cp = d.cp
  range : c.range = d.range
  attrs : c.attrs = d.attrs
  vars : c.getVariants = d.getVariants

/-! ## One variant -/

theorem addVariant_exact {db : UniDb} {g : LGR} {k : Seq} {c : CharObj} {v : Variant} {force : Bool}
    (hl : g.rep.lookup k = some c) (hr : c.range = none) (hv : v.cp ≠ [])
    (hn : ∀ u ∈ (dget c.vars v.cp).getD [], u.key ≠ v.key)
    (hk : Allowed db g.raiseInvalid k) (ha : Allowed db g.raiseInvalid v.cp)
    (href : ∀ i ∈ v.refs, (dget g.refs.refs i).isSome = true)
    (hs : force = false → (v.whenR = none ∨ v.notWhenR = none) ∧ v.refs.Nodup) :
    g.addVariant db (.seq k) (.seq v.cp) v.type
      { comment := v.comment, ref := v.refs, whenR := v.whenR, notWhenR := v.notWhenR, force := force } =
      ({ g with rep := g.rep.putChar (put c v),
                types := if v.type ∈ g.types then g.types else g.types ++ [v.type] }, .ok ()) := by
  have hkr : knownRefs g
      { comment := v.comment, ref := v.refs, whenR := v.whenR, notWhenR := v.notWhenR, force := force } =
      v.refs := by
    unfold knownRefs
    rw [List.filter_eq_self]
    exact href
  have hk0 : k ≠ [] := by
    rintro rfl
    simp at hl
  have hch : g.addVariantChecks db (.seq k) (.seq v.cp) v.type
      { comment := v.comment, ref := v.refs, whenR := v.whenR, notWhenR := v.notWhenR, force := force } =
      .ok (k, v) := by
    rw [addVariantChecks_ok]
    refine ⟨.seq _ hk0, hk, .seq _ hv, ha, fun _ h => by simp at h, ?_, fun hf => ?_⟩
    · rw [hkr]
    · exact ⟨(hs hf).1, href, (hs hf).2⟩
  unfold LGR.addVariant
  rw [hch]
  simp only
  unfold Repertoire.addVariant
  rw [getChar_ok.2 hl]
  simp only
  rw [addVariant_put hr hv hn]

theorem put_cp (c : CharObj) (v : Variant) : (put c v).cp = c.cp := rfl

/-- The LGR with an entry replaced, the types of some variants added. -/
def withTypes (ts : List (Option String)) (L : List Variant) : List (Option String) :=
  L.foldl (fun ts v => if v.type ∈ ts then ts else ts ++ [v.type]) ts

theorem mem_withTypes (L : List Variant) (ts : List (Option String)) (t : Option String) :
    t ∈ withTypes ts L ↔ t ∈ ts ∨ ∃ v ∈ L, v.type = t := by
  unfold withTypes
  induction L generalizing ts with
  | nil => simp
  | cons v L ih =>
    rw [List.foldl_cons, ih]
    by_cases h : v.type ∈ ts
    · simp only [h, if_true, List.mem_cons, exists_eq_or_imp]
      constructor
      · rintro (h | h)
        · exact .inl h
        · exact .inr (.inr h)
      · rintro (h' | rfl | h')
        · exact .inl h'
        · exact .inl h
        · exact .inr h'
    · simp only [h, if_false, List.mem_append, List.mem_cons, exists_eq_or_imp, List.not_mem_nil, or_false]
      constructor
      · rintro ((h | rfl) | h)
        · exact .inl h
        · exact .inr (.inl rfl)
        · exact .inr (.inr h)
      · rintro (h | h | h)
        · exact .inl (.inl h)
        · exact .inl (.inr h.symm)
        · exact .inr h

/-- All the `var` elements of a character. -/
theorem parse_vars {db : UniDb} {force : Bool} (L : List Variant) (s : PState) (hwf : WF s.lgr.rep)
    {c : CharObj} (hl : s.lgr.rep.lookup c.cp = some c) (hr : c.range = none)
    (hk : Allowed db s.lgr.raiseInvalid c.cp)
    (hv : ∀ v ∈ L, v.cp ≠ [] ∧ Allowed db s.lgr.raiseInvalid v.cp ∧
      (∀ i ∈ v.refs, (dget s.lgr.refs.refs i).isSome = true) ∧ Words v.refs ∧
      (force = false → (v.whenR = none ∨ v.notWhenR = none) ∧ v.refs.Nodup))
    (hn : ∀ v ∈ L, ∀ u ∈ (dget c.vars v.cp).getD [], u.key ≠ v.key)
    (hp : (L.map Variant.key).Nodup) :
    ∃ s', forEach (parseVar db force c.cp) s (L.map varAttrs) = (s', .ok ()) ∧ WF s'.lgr.rep ∧
      (∀ k, s'.lgr.rep.lookup k = if k = c.cp then some (L.foldl put c) else s.lgr.rep.lookup k) ∧
      s'.lgr.rep.ranges = s.lgr.rep.ranges ∧ s'.lgr.refs = s.lgr.refs ∧
      s'.lgr.raiseInvalid = s.lgr.raiseInvalid ∧ s'.lgr.tagCls = s.lgr.tagCls ∧
      s'.lgr.types = withTypes s.lgr.types L ∧ s'.checks = s.checks ∧ s'.prev = s.prev ∧
      ∀ i, seqs s'.lgr.rep i = seqs s.lgr.rep i := by
  induction L generalizing s c with
  | nil =>
    refine ⟨s, rfl, hwf, ?_, rfl, rfl, rfl, rfl, rfl, rfl, rfl, fun _ => rfl⟩
    intro k
    split
    · rename_i h; rw [h]; exact hl
    · rfl
  | cons v L ih =>
    obtain ⟨h1, h2, h3, h4, h5⟩ := hv v (by simp)
    have hnv := hn v (by simp)
    have he := addVariant_exact (force := force) hl hr h1 hnv hk h2 h3 h5
    rw [List.map_cons, List.nodup_cons] at hp
    set s1 : PState := { s with lgr := { s.lgr with
      rep := s.lgr.rep.putChar (put c v),
      types := if v.type ∈ s.lgr.types then s.lgr.types else s.lgr.types ++ [v.type] } } with hs1
    have hstep : parseVar db force c.cp s (varAttrs v) = (s1, .ok ()) := by
      unfold parseVar
      rw [cp_var]
      dsimp only
      rw [type_var, opts_var force v h4, he]
      rfl
    have hlk : ∀ k, s1.lgr.rep.lookup k = if k = c.cp then some (put c v) else s.lgr.rep.lookup k := by
      intro k
      exact lookup_putChar (c := put c v) (by rw [put_cp, hl]; rfl) k
    have hcw := lookup_charWF hwf hl
    have hwf1 : WF s1.lgr.rep := by
      refine putChar_wf hwf ⟨put_wf hcw.varWF hr h1 hnv, ?_⟩
      intro f l h
      exact hcw.rangeCp f l h
    obtain ⟨s', hs', w, a1, a2, a3, a4, a5, a6, a7, a8, a9⟩ := ih (c := put c v) s1 hwf1
      (by rw [hlk, if_pos (put_cp c v)]) hr hk (fun u hu => hv u (by simp [hu]))
      (by
        intro u hu w hw
        simp only [put, dget_dset] at hw
        split at hw
        · rename_i hvu
          simp only [Option.getD_some, List.mem_append, List.mem_singleton] at hw
          rcases hw with hw | rfl
          · exact hn u (by simp [hu]) w (by rw [← hvu]; exact hw)
          · intro hk
            exact hp.1 (by rw [hk]; exact List.mem_map_of_mem hu)
        · exact hn u (by simp [hu]) w hw) hp.2
    refine ⟨s', ?_, w, ?_, ?_, a3, a4, a5, a6, a7, a8, fun i => (a9 i).trans (seqs_putChar _ _ i)⟩
    · rw [List.map_cons, forEach, hstep]
      exact hs'
    · intro k
      rw [a1, hlk]
      change (if k = c.cp then _ else _) = _
      by_cases hk : k = c.cp <;> simp [hk]
    · rw [a2]; exact putChar_ranges _ _

/-! ## One character -/

theorem variants_keys {c : CharObj} (h : c.VarWF) : (c.getVariants.map Variant.key).Nodup := by
  unfold CharObj.getVariants
  rw [List.map_flatMap, List.nodup_flatMap]
  constructor
  · intro k hk
    obtain ⟨vs, hvs⟩ := Option.isSome_iff_exists.1 (dget_isSome.2 ((mem_sortAsc _).1 hk))
    rw [hvs]
    exact h.uniq _ (mem_of_dget hvs)
  · have hn : (sortAsc id (c.vars.map Prod.fst)).Nodup := ((sortAsc_perm _ _).nodup_iff).2 h.keys
    refine hn.imp ?_
    intro a b hab
    simp only [Function.onFun]
    have key : ∀ k x, x ∈ ((dget c.vars k).getD []).map Variant.key → x.1 = k := by
      intro k x hx
      obtain ⟨v, hv, rfl⟩ := List.mem_map.1 hx
      cases hd : dget c.vars k with
      | none => rw [hd] at hv; simp at hv
      | some vs =>
        rw [hd] at hv
        exact h.filed _ (mem_of_dget hd) v hv
    intro x hx hy
    exact hab ((key a x hx).symm.trans (key b x hy))

theorem variants_ne {c : CharObj} (h : c.VarWF) {v : Variant} (hv : v ∈ c.getVariants) : v.cp ≠ [] := by
  obtain ⟨vs, h1, -⟩ := (CharObj.mem_getVariants h v).1 hv
  exact (h.nonempty _ (mem_of_dget h1)).2

theorem elem_char {c : CharObj} (hr : c.range = none) :
    (charElem c).tag = "char" ∧ (charElem c).vars = c.getVariants.map varAttrs := by
  unfold charElem
  rw [hr]
  exact ⟨rfl, rfl⟩

theorem elem_range {c : CharObj} {f l : Nat} (hr : c.range = some (f, l)) :
    (charElem c).tag = "range" ∧ (charElem c).vars = c.getVariants.map varAttrs := by
  unfold charElem
  rw [hr]
  exact ⟨rfl, rfl⟩

theorem known_all {g : LGR} {o : Opts} (h : ∀ i ∈ o.ref, (dget g.refs.refs i).isSome = true) :
    knownRefs g o = o.ref := by
  unfold knownRefs
  rw [List.filter_eq_self]
  exact h

/-- The element of a character that is not part of a range. -/
theorem parse_char {db : UniDb} {force : Bool} {s : PState} (hwf : WF s.lgr.rep) {c : CharObj}
    (hcw : CharWF c) (hr : c.range = none) (hc0 : c.cp ≠ []) (hl : s.lgr.rep.lookup c.cp = none)
    (h : Readable db s.lgr.raiseInvalid force s.lgr.refs c) :
    ∃ s' c', parseElem db force s (charElem c) = (s', .ok ()) ∧ WF s'.lgr.rep ∧ Same c c' ∧
      (∀ k, s'.lgr.rep.lookup k = if k = c.cp then some c' else s.lgr.rep.lookup k) ∧
      s'.lgr.rep.ranges = s.lgr.rep.ranges ∧ s'.lgr.refs = s.lgr.refs ∧
      s'.lgr.raiseInvalid = s.lgr.raiseInvalid ∧
      (∀ t x, x ∈ tagSet s'.lgr t ↔ x ∈ tagSet s.lgr t ∨ (t ∈ c.attrs.tags ∧ x ∈ c.cp)) ∧
      (∀ t, t ∈ s'.lgr.types ↔ t ∈ s.lgr.types ∨ ∃ v ∈ c.getVariants, v.type = t) ∧
      s'.checks = (orderCheck s c.cp).checks ∧ s'.prev = c.cp ∧
      ∀ i, seqs s'.lgr.rep i = seqs s.lgr.rep i ++ [c.cp].filter (inSeqs i) := by
  set o : Opts :=
    { comment := c.attrs.comment, ref := c.attrs.refs, tag := c.attrs.tags,
      whenR := c.attrs.whenR, notWhenR := c.attrs.notWhenR, force := force } with ho
  have hoc : ∀ s : PState, ∀ cp, (orderCheck s cp).lgr = s.lgr ∧ (orderCheck s cp).prev = cp := by
    intro s cp
    refine ⟨?_, rfl⟩
    unfold orderCheck PState.error
    dsimp only
    split
    · split <;> rfl
    · rfl
  have hok : (s.lgr.addCp db (.seq c.cp) o).2 = .ok () := by
    rw [add_cp_ok_iff]
    refine ⟨c.cp, .seq _ hc0, h.allowed, fun _ h => by simp [ho] at h, hl, fun hf => ?_⟩
    obtain ⟨p1, p2, p3, p4⟩ := h.plain (by simpa [ho] using hf)
    exact ⟨⟨p1, h.refs, p2⟩, p3, p4⟩
  obtain ⟨k, hd, -, e1, e2, e3, e4, e5, e6⟩ := add_cp_effect db s.lgr (.seq c.cp) o hok
  cases hd
  have hwf1 := C30.wf_addCp (db := db) hwf (.seq c.cp) o
  generalize hres : s.lgr.addCp db (.seq c.cp) o = res at hok e1 e2 e3 e4 e5 e6 hwf1
  obtain ⟨g1, out⟩ := res
  subst hok
  simp only at e1 e2 e3 e4 e5 e6 hwf1
  rw [known_all (o := o) h.refs] at e1
  set d : CharObj := { cp := c.cp, attrs := c.attrs } with hd
  have hld : g1.rep.lookup d.cp = some d := by rw [e1, if_pos rfl]
  obtain ⟨s', hs', w, a1, a2, a3, a4, a5, a6, a7, a8, a9⟩ :=
    parse_vars (db := db) (force := force) c.getVariants { orderCheck s c.cp with lgr := g1 } hwf1 (c := d) hld rfl
      (by rw [e6]; exact h.allowed)
      (fun v hv => ⟨variants_ne hcw.varWF hv, by rw [e6]; exact (h.vars v hv).1,
        by rw [e4]; exact (h.vars v hv).2.1, (h.vars v hv).2.2⟩)
      (by simp [hd, dget]) (variants_keys hcw.varWF)
  obtain ⟨r1, r2, r3⟩ := puts_rest c.getVariants d
  refine ⟨s', c.getVariants.foldl put d, ?_, w,
    ⟨r1.symm, by rw [r2]; exact hr, r3.symm, (puts_variants hcw.varWF rfl).symm⟩, ?_, ?_, ?_, ?_, ?_, ?_, a7, a8,
    fun i => (a9 i).trans (seqs_addCp hres i)⟩
  · unfold parseElem
    rw [(elem_char hr).1, if_pos rfl, cp_char hr]
    dsimp only
    rw [opts_char force c h.refWords h.tagWords, (hoc s c.cp).1, ← ho, hres, (elem_char hr).2]
    exact hs'
  · intro k
    rw [a1]
    change (if k = c.cp then _ else g1.rep.lookup k) = _
    rw [e1]
    by_cases hk : k = c.cp <;> simp [hk]
  · rw [a2]; exact e2
  · rw [a3]; exact e4
  · rw [a4]; exact e6
  · intro t x
    unfold tagSet
    rw [a5]
    exact e3 t x
  · intro t
    rw [a6, mem_withTypes]
    change t ∈ g1.types ∨ _ ↔ _
    rw [e5]

/-! ## One range -/

theorem range_variants {c : CharObj} (hcw : CharWF c) {p : Nat × Nat} (hr : c.range = some p) :
    c.getVariants = [] := by
  unfold CharObj.getVariants
  rw [hcw.varWF.range (by rw [hr]; rfl)]
  rfl

/-- The element of a range. -/
theorem parse_range {db : UniDb} {force : Bool} {s : PState} (hwf : WF s.lgr.rep) {c : CharObj} {f l : Nat}
    (hr : c.range = some (f, l)) (hfl : f < l)
    (hl : ∀ x, f ≤ x → x ≤ l → s.lgr.rep.lookup [x] = none)
    (h : ∀ x, f ≤ x → x ≤ l → Readable db s.lgr.raiseInvalid force s.lgr.refs { c with cp := [x] }) :
    ∃ s', parseElem db force s (charElem c) = (s', .ok ()) ∧ WF s'.lgr.rep ∧
      (∀ x, f ≤ x → x ≤ l →
        s'.lgr.rep.lookup [x] = some { cp := [x], range := some (f, l), attrs := c.attrs }) ∧
      (∀ k, (∀ x, f ≤ x → x ≤ l → k ≠ [x]) → s'.lgr.rep.lookup k = s.lgr.rep.lookup k) ∧
      s'.lgr.rep.ranges = s.lgr.rep.ranges ++ [(f, l)] ∧ s'.lgr.refs = s.lgr.refs ∧
      s'.lgr.raiseInvalid = s.lgr.raiseInvalid ∧
      (∀ t x, x ∈ tagSet s'.lgr t ↔ x ∈ tagSet s.lgr t ∨ (t ∈ c.attrs.tags ∧ f ≤ x ∧ x ≤ l)) ∧
      s'.lgr.types = s.lgr.types ∧ s'.checks = s.checks ∧ s'.prev = s.prev ∧
      ∀ i, seqs s'.lgr.rep i = seqs s.lgr.rep i := by
  have h0 := h f (le_refl _) hfl.le
  set o : Opts :=
    { comment := c.attrs.comment, ref := c.attrs.refs, tag := c.attrs.tags,
      whenR := c.attrs.whenR, notWhenR := c.attrs.notWhenR, force := force } with ho
  have hval : ∀ x, f ≤ x → x ≤ l → Valid db x ∨ s.lgr.raiseInvalid = false := by
    intro x h1 h2
    cases hs : s.lgr.raiseInvalid with
    | false => exact .inr rfl
    | true => exact .inl fun valid hv => (h x h1 h2).allowed hs valid hv x (by simp)
  have hok : (s.lgr.addRange db f l o).2 = .ok () := by
    rw [add_range_ok_iff db s.lgr hwf]
    refine ⟨hfl.le, ?_, ?_, ?_⟩
    · intro x _ _ _ check hc; simp [ho] at hc
    · rintro x h1 h2 ⟨h3, -⟩
      rw [hl x h1 h2] at h3; simp at h3
    · split
      · exact ⟨f, le_refl _, hfl.le, hl f (le_refl _) hfl.le, hval f (le_refl _) hfl.le⟩
      · rename_i hf
        obtain ⟨p1, p2, p3, p4⟩ := h0.plain (by simpa [ho] using hf)
        exact ⟨⟨⟨p1, h0.refs, p2⟩, p3⟩, fun x h1 h2 => ⟨hl x h1 h2, hval x h1 h2,
          fun _ _ check hc => by simp [ho] at hc⟩⟩
  obtain ⟨-, rs, hsep, hcov, e1, e2, e3, e4, e5, e6, e7, -⟩ := add_range_exact db s.lgr hwf f l o hok
  have hrs : rs = [(f, l)] := by
    refine C05.cover_unique _ _ hsep ⟨by simpa using hfl.le, by simp⟩ fun x => ?_
    rw [hcov]
    constructor
    · rintro ⟨h1, h2, _⟩; exact ⟨(f, l), by simp, h1, h2⟩
    · rintro ⟨q, hq, h1, h2⟩
      rw [List.mem_singleton] at hq; subst hq
      exact ⟨h1, h2, hl x h1 h2, hval x h1 h2⟩
  subst hrs
  have hwf1 : WF (s.lgr.addRange db f l o).1.rep := by
    exact (inv_addRangeL (P := fun _ => True) (db := db) (f := f) (l := l) (o := o) ⟨hwf, by simp⟩ (by simp) (by simp)).wf
  have hC : ∀ x, C05.Covers [(f, l)] x ↔ f ≤ x ∧ x ≤ l := by
    intro x; simp [C05.Covers]
  have e8 := seqs_addRange db s.lgr f l o
  generalize hres : s.lgr.addRange db f l o = res at hok e1 e2 e3 e4 e5 e6 e7 e8 hwf1
  obtain ⟨g1, out⟩ := res
  subst hok
  simp only at e1 e2 e3 e4 e5 e6 e7 hwf1
  rw [known_all (o := o) h0.refs] at e1
  refine ⟨{ s with lgr := g1 }, ?_, hwf1, ?_, ?_, ?_, e5, e7, ?_, e6, rfl, rfl, e8⟩
  · unfold parseElem
    rw [(elem_range hr).1, if_neg (by decide), if_pos rfl, (cp_range hr).1]
    dsimp only
    rw [(cp_range hr).2]
    dsimp only
    rw [opts_char force c h0.refWords h0.tagWords, ← ho, hres]
    rfl
  · intro x h1 h2
    have := e1 (f, l) (by simp) x h1 h2
    rw [this, if_neg (by simpa using hfl.ne)]
  · intro k hk
    exact e2 k fun x hx => hk x ((hC x).1 hx).1 ((hC x).1 hx).2
  · rw [e3]
    congr 1
    simp [hfl.ne]
  · intro t x
    rw [e4, hC]

/-! ## All of them -/

/-- The failed checks of the order of the characters. -/
def orderNotes : Seq → List Seq → List String
  | _, [] => []
  | p, k :: ks =>
    (if k ≤ p then [if p.take k.length = k then "char_strict_ascending_order" else "char_ascending_order"]
      else []) ++ orderNotes k ks

/-- The checks with some more that failed. -/
def failed (cs : Rfc7940.Results) (labels : List String) : Rfc7940.Results :=
  labels.foldl (fun cs l => Rfc7940.addTestResult cs l false) cs

/-- The listed characters that are not part of a range. -/
def singles (L : List CharObj) : List Seq := (L.filter (fun c => c.range = none)).map CharObj.cp

/-- What makes an entry listed by the iteration readable. -/
structure Ready (db : UniDb) (strict force : Bool) (m : RefManager) (c : CharObj) : Prop where
  wf : CharWF c
  ne : c.cp ≠ []
  first : ∀ f l, c.range = some (f, l) → f < l ∧ c.cp = [f]
  readable : ∀ d ∈ members c, Readable db strict force m d

/-- The state after reading the elements of some entries. -/
structure After (m : RefManager) (strict : Bool) (done : List CharObj) (s : PState) : Prop where
  wf : WF s.lgr.rep
  refs : s.lgr.refs = m
  strict : s.lgr.raiseInvalid = strict
  there : ∀ d ∈ done.flatMap members, ∃ d', s.lgr.rep.lookup d.cp = some d' ∧ Same d d'
  only : ∀ k d', s.lgr.rep.lookup k = some d' → ∃ d ∈ done.flatMap members, d.cp = k
  ranges : s.lgr.rep.ranges = done.filterMap CharObj.range
  tags : ∀ t x, x ∈ tagSet s.lgr t ↔ ∃ d ∈ done.flatMap members, t ∈ d.attrs.tags ∧ x ∈ d.cp
  types : ∀ t, t ∈ s.lgr.types ↔ ∃ d ∈ done, ∃ v ∈ d.getVariants, v.type = t
  seqs : ∀ i, seqs s.lgr.rep i = (done.map CharObj.cp).filter (inSeqs i)

theorem after_step {db : UniDb} {m : RefManager} {strict force : Bool} {done : List CharObj} {s : PState}
    (h : After m strict done s) {c : CharObj} (hc : Ready db strict force m c)
    (hnew : ∀ d ∈ members c, ∀ e ∈ done.flatMap members, e.cp ≠ d.cp) :
    ∃ s', parseElem db force s (charElem c) = (s', .ok ()) ∧ After m strict (done ++ [c]) s' ∧
      s'.checks = (if c.range = none then (orderCheck s c.cp).checks else s.checks) ∧
      s'.prev = if c.range = none then c.cp else s.prev := by
  obtain ⟨h1, h2, h3, h4, h5, h6, h7, h8, h9⟩ := h
  subst h2 h3
  have hno : ∀ d ∈ members c, s.lgr.rep.lookup d.cp = none := by
    intro d hd
    cases hl : s.lgr.rep.lookup d.cp with
    | none => rfl
    | some e =>
      obtain ⟨e', he', hcp⟩ := h5 _ _ hl
      exact absurd hcp (hnew d hd e' he')
  cases hr : c.range with
  | none =>
    have hm : members c = [c] := by unfold members; rw [hr]
    rw [hm] at hno hnew
    obtain ⟨s', c', p, w, same, a1, a2, a3, a4, a5, a6, a7, a8, a9⟩ := parse_char (db := db) (force := force) h1 hc.wf hr hc.ne
      (hno c (by simp)) (hc.readable c (by simp [hm]))
    refine ⟨s', p, ⟨w, a3, a4, ?_, ?_, ?_, ?_, ?_, fun i => by rw [a9, h9, List.map_append, List.filter_append]; rfl⟩,
      a7, a8⟩
    · intro d hd
      simp only [List.flatMap_append, List.flatMap_cons, List.flatMap_nil, List.append_nil, List.mem_append, hm,
        List.mem_singleton] at hd
      rcases hd with hd | rfl
      · obtain ⟨d', hd', hs⟩ := h4 d hd
        exact ⟨d', by rw [a1, if_neg (hnew c (by simp) d hd)]; exact hd', hs⟩
      · exact ⟨c', by rw [a1, if_pos rfl], same⟩
    · intro k d' hd'
      rw [a1] at hd'
      simp only [List.flatMap_append, List.flatMap_cons, List.flatMap_nil, List.append_nil, List.mem_append, hm,
        List.mem_singleton]
      split at hd'
      · rename_i hk
        exact ⟨c, .inr rfl, hk.symm⟩
      · obtain ⟨d, hd, hk⟩ := h5 k d' hd'
        exact ⟨d, .inl hd, hk⟩
    · rw [a2, h6]; simp [hr]
    · intro t x
      rw [a5, h7]
      simp only [List.flatMap_append, List.flatMap_cons, List.flatMap_nil, List.append_nil, List.mem_append, hm,
        List.mem_singleton]
      constructor
      · rintro (⟨d, hd, ht⟩ | ht)
        · exact ⟨d, .inl hd, ht⟩
        · exact ⟨c, .inr rfl, ht⟩
      · rintro ⟨d, hd | rfl, ht⟩
        · exact .inl ⟨d, hd, ht⟩
        · exact .inr ht
    · intro t
      rw [a6, h8]
      simp only [List.mem_append, List.mem_singleton]
      constructor
      · rintro (⟨d, hd, ht⟩ | ht)
        · exact ⟨d, .inl hd, ht⟩
        · exact ⟨c, .inr rfl, ht⟩
      · rintro ⟨d, hd | rfl, ht⟩
        · exact .inl ⟨d, hd, ht⟩
        · exact .inr ht
  | some q =>
    obtain ⟨f, l⟩ := q
    obtain ⟨hfl, hcp⟩ := hc.first f l hr
    have hm : members c = (cpRange f l).map (fun x => { c with cp := [x] }) := by unfold members; rw [hr]
    have hmem : ∀ x, f ≤ x → x ≤ l → ({ c with cp := [x] } : CharObj) ∈ members c := by
      intro x h1 h2
      rw [hm]
      exact List.mem_map.2 ⟨x, mem_cpRange.2 ⟨h1, h2⟩, rfl⟩
    have hgv := range_variants hc.wf hr
    have hvars : c.vars = [] := hc.wf.varWF.range (by rw [hr]; rfl)
    obtain ⟨s', p, w, a1, a2, a3, a4, a5, a6, a7, a8, a9, a10⟩ := parse_range (db := db) (force := force) h1 hr hfl
      (fun x h1 h2 => hno _ (hmem x h1 h2)) (fun x h1 h2 => hc.readable _ (hmem x h1 h2))
    refine ⟨s', p, ⟨w, a4, a5, ?_, ?_, ?_, ?_, ?_,
      fun i => by rw [a10, h9, List.map_append, List.filter_append]; simp [hcp, inSeqs]⟩, a8, a9⟩
    · intro d hd
      simp only [List.flatMap_append, List.flatMap_cons, List.flatMap_nil, List.append_nil, List.mem_append] at hd
      rcases hd with hd | hd
      · obtain ⟨d', hd', hs⟩ := h4 d hd
        refine ⟨d', ?_, hs⟩
        rw [a2 _ (fun x h1 h2 => hnew _ (hmem x h1 h2) d hd)]
        exact hd'
      · rw [hm] at hd
        obtain ⟨x, hx, rfl⟩ := List.mem_map.1 hd
        obtain ⟨x1, x2⟩ := mem_cpRange.1 hx
        refine ⟨_, a1 x x1 x2, rfl, hr, rfl, ?_⟩
        unfold CharObj.getVariants
        simp only [hvars]
    · intro k d' hd'
      simp only [List.flatMap_append, List.flatMap_cons, List.flatMap_nil, List.append_nil, List.mem_append]
      by_cases hk : ∃ x, f ≤ x ∧ x ≤ l ∧ k = [x]
      · obtain ⟨x, x1, x2, rfl⟩ := hk
        exact ⟨_, .inr (hmem x x1 x2), rfl⟩
      · rw [a2 k (fun x x1 x2 hx => hk ⟨x, x1, x2, hx⟩)] at hd'
        obtain ⟨d, hd, hk⟩ := h5 k d' hd'
        exact ⟨d, .inl hd, hk⟩
    · rw [a3, h6]; simp [hr]
    · intro t x
      rw [a6, h7]
      simp only [List.flatMap_append, List.flatMap_cons, List.flatMap_nil, List.append_nil, List.mem_append]
      constructor
      · rintro (⟨d, hd, ht⟩ | ⟨ht, x1, x2⟩)
        · exact ⟨d, .inl hd, ht⟩
        · exact ⟨_, .inr (hmem x x1 x2), ht, by simp⟩
      · rintro ⟨d, hd | hd, ht⟩
        · exact .inl ⟨d, hd, ht⟩
        · rw [hm] at hd
          obtain ⟨y, hy, rfl⟩ := List.mem_map.1 hd
          obtain ⟨x1, x2⟩ := mem_cpRange.1 hy
          have : x = y := by simpa using ht.2
          subst this
          exact .inr ⟨ht.1, x1, x2⟩
    · intro t
      rw [a7, h8]
      simp only [List.mem_append, List.mem_singleton]
      constructor
      · rintro ⟨d, hd, ht⟩; exact ⟨d, .inl hd, ht⟩
      · rintro ⟨d, hd | rfl, ht⟩
        · exact ⟨d, hd, ht⟩
        · rw [hgv] at ht; simp at ht

theorem after_loop {db : UniDb} {m : RefManager} {strict force : Bool} (L : List CharObj) {done : List CharObj}
    {s : PState} (h : After m strict done s) (hc : ∀ c ∈ L, Ready db strict force m c)
    (hn : (((done ++ L).flatMap members).map CharObj.cp).Nodup) :
    ∃ s', forEach (parseElem db force) s (L.map charElem) = (s', .ok ()) ∧ After m strict (done ++ L) s' ∧
      s'.checks = failed s.checks (orderNotes s.prev (singles L)) := by
  induction L generalizing done s with
  | nil => exact ⟨s, rfl, by simpa using h, rfl⟩
  | cons c L ih =>
    obtain ⟨s1, p1, h1, c1, q1⟩ := after_step h (hc c (by simp)) (by
      intro d hd e he hcp
      rw [List.flatMap_append, List.map_append, List.nodup_append] at hn
      exact hn.2.2 e.cp (List.mem_map_of_mem he) d.cp
        (List.mem_map_of_mem (List.mem_flatMap.2 ⟨c, by simp, hd⟩)) hcp)
    obtain ⟨s2, p2, h2, c2⟩ := ih h1 (fun c hc' => hc c (by simp [hc'])) (by simpa using hn)
    refine ⟨s2, ?_, by simpa using h2, ?_⟩
    · rw [List.map_cons, forEach, p1]
      exact p2
    · rw [c2, c1, q1]
      by_cases hr : c.range = none
      · have hsing : singles (c :: L) = c.cp :: singles L := by simp [singles, hr]
        rw [hsing]
        simp only [hr, if_true, orderNotes]
        unfold orderCheck PState.error
        dsimp only
        split
        · split <;> rfl
        · rfl
      · have hsing : singles (c :: L) = singles L := by simp [singles, hr]
        rw [hsing, if_neg hr, if_neg hr]

theorem members_cps_nodup {r : Repertoire} (h : WF r) (hi : Intact r) :
    ((r.iter.flatMap members).map CharObj.cp).Nodup := by
  refine List.Nodup.map_on ?_ (members_nodup h hi)
  intro c hc d hd hcd
  have h1 := (mem_members_iter h hi c).1 hc
  have h2 := (mem_members_iter h hi d).1 hd
  rw [hcd, h2] at h1
  exact (Option.some.inj h1).symm

theorem ready_iter {db : UniDb} {strict force : Bool} {m : RefManager} {r : Repertoire} (hwf : WF r)
    (hi : Intact r) (h : ∀ k c, r.lookup k = some c → Readable db strict force m c) :
    ∀ c ∈ r.iter, Ready db strict force m c := by
  intro c hc
  obtain ⟨hl, hf⟩ := (mem_iter_intact hwf hi c).1 hc
  refine ⟨lookup_charWF hwf hl, ?_, ?_, ?_⟩
  · intro h0; rw [h0] at hl; simp at hl
  · intro f l hr
    exact ⟨(hi.full f l (hi.marked _ c _ hl hr)).1, hf f l hr⟩
  · intro d hd
    exact h _ d ((mem_members_iter hwf hi d).1 (List.mem_flatMap.2 ⟨c, hc, hd⟩))

/-- **C34, partial** The data section of an LGR, all entries of which are readable, is written; and reading it gives
back, for every code point and every sequence, the same entry: its range, comment, references, tags and
context rules, and its variants in the same order with type, comment, references and context rules. The
declared ranges are the same, the tag classes and the variant types are those of the entries, and writing
the LGR that was read gives the same document. The only conformance checks that can fail are those of the
order of the characters. Missing: ranges of which a member was deleted and names that cannot be written, see
`deleted_member_returns`, `tags_change`, `control_character`. -/
theorem data_round_trip_partial {db : UniDb} {strict force : Bool} {m : RefManager} {r : Repertoire}
    (hwf : WF r) (hi : Intact r) (h : ∀ k c, r.lookup k = some c → Readable db strict force m c)
    (cs : Rfc7940.Results) (pv : Seq) :
    ∃ es s', serializeData r = .ok es ∧
      parseData db force { lgr := { refs := m, raiseInvalid := strict }, checks := cs, prev := pv } es = (s', .ok ()) ∧
      (∀ k c, r.lookup k = some c → ∃ c', s'.lgr.rep.lookup k = some c' ∧ Same c c') ∧
      (∀ k, (s'.lgr.rep.lookup k).isSome → (r.lookup k).isSome) ∧
      (s'.lgr.rep.ranges.Perm r.ranges) ∧ WF s'.lgr.rep ∧ Intact s'.lgr.rep ∧
      s'.lgr.refs = m ∧ s'.lgr.raiseInvalid = strict ∧
      (∀ t x, x ∈ tagSet s'.lgr t ↔ ∃ k c, r.lookup k = some c ∧ t ∈ c.attrs.tags ∧ x ∈ k) ∧
      (∀ t, t ∈ s'.lgr.types ↔ ∃ k c, r.lookup k = some c ∧ ∃ v ∈ c.getVariants, v.type = t) ∧
      serializeData s'.lgr.rep = .ok es ∧
      s'.checks = Rfc7940.addTestResult (Rfc7940.addTestResult (failed cs (orderNotes [] (singles r.iter)))
        "char_ascending_order" true) "char_strict_ascending_order" true := by
  have hready := ready_iter hwf hi h
  have hok : (r.iter.map charElem).all Elem.ok = true := by
    rw [List.all_eq_true]
    intro e he
    obtain ⟨c, hc, rfl⟩ := List.mem_map.1 he
    exact elem_ok (h _ c ((mem_iter_intact hwf hi c).1 hc).1).xml
  have h0 : After m strict [] { lgr := { refs := m, raiseInvalid := strict }, checks := cs, prev := [] } :=
    ⟨wf_empty, rfl, rfl, by simp, by intro k d hd; simp [lookup, bucket, dget] at hd; cases k <;> simp_all [bucket, dget],
      by simp, by simp [tagSet, dget], by simp, by simp [seqs, bucket, dget]⟩
  obtain ⟨s', hs', A, hcs⟩ := after_loop r.iter h0 hready (by simpa using members_cps_nodup hwf hi)
  rw [List.nil_append] at A
  have hthere : ∀ k c, r.lookup k = some c → ∃ c', s'.lgr.rep.lookup k = some c' ∧ Same c c' := by
    intro k c hc
    have hk := lookup_cp hc
    obtain ⟨c', h1, h2⟩ := A.there c ((mem_members_iter hwf hi c).2 (by rw [hk]; exact hc))
    exact ⟨c', by rw [← hk]; exact h1, h2⟩
  have honly : ∀ k d', s'.lgr.rep.lookup k = some d' → ∃ d, r.lookup k = some d ∧ Same d d' := by
    intro k d' hd'
    obtain ⟨d, hd, rfl⟩ := A.only k d' hd'
    have hl := (mem_members_iter hwf hi d).1 hd
    obtain ⟨d'', h1, h2⟩ := hthere _ _ hl
    rw [hd'] at h1
    rw [Option.some.inj h1]
    exact ⟨d, hl, h2⟩
  have hperm : s'.lgr.rep.ranges.Perm r.ranges := by
    rw [A.ranges]
    rw [List.perm_ext_iff_of_nodup _ hi.nodup]
    · rintro ⟨f, l⟩
      rw [List.mem_filterMap]
      constructor
      · rintro ⟨c, hc, hr⟩
        exact hi.marked _ c _ ((mem_iter_intact hwf hi c).1 hc).1 hr
      · intro hp
        obtain ⟨hfl, a, ha⟩ := hi.full f l hp
        refine ⟨_, (mem_iter_intact hwf hi { cp := [f], range := some (f, l), attrs := a }).2
          ⟨ha f (le_refl _) hfl.le, ?_⟩, rfl⟩
        intro f' l' he
        simp only [Option.some.injEq, Prod.mk.injEq] at he
        rw [he.1]
    · have hnd := iter_nodup hwf
      rw [List.Nodup, List.pairwise_filterMap]
      rw [List.Nodup, List.pairwise_map] at hnd
      refine hnd.imp_of_mem ?_
      intro c d hc hd hne p hp q hq hpq
      subst hpq
      obtain ⟨f, l⟩ := p
      exact hne ((((mem_iter_intact hwf hi c).1 hc).2 f l hp).trans
        (((mem_iter_intact hwf hi d).1 hd).2 f l hq).symm)
  have hint : Intact s'.lgr.rep := by
    refine ⟨?_, ?_, hperm.symm.nodup hi.nodup⟩
    · intro f l hp
      obtain ⟨hfl, a, ha⟩ := hi.full f l (hperm.mem_iff.1 hp)
      refine ⟨hfl, a, fun x x1 x2 => ?_⟩
      obtain ⟨c', h1, s1, s2, s3, s4⟩ := hthere _ _ (ha x x1 x2)
      rw [h1]
      have hw := lookup_charWF A.wf h1
      have hv : c'.vars = [] := hw.varWF.range (by rw [← s2]; rfl)
      obtain ⟨cp, rg, at', vs⟩ := c'
      simp only at s1 s2 s3 hv
      subst s1 s2 s3 hv
      rfl
    · intro k c p hk hp
      obtain ⟨d, hd, hs⟩ := honly k c hk
      exact hperm.mem_iff.2 (hi.marked k d p hd (by rw [hs.range]; exact hp))
  have hagain : s'.lgr.rep.iter.map charElem = r.iter.map charElem := by
    have hcps := iter_cps_eq hwf hi A.wf hint
      (fun k c hc => (hthere k c hc).imp fun d hd => ⟨hd.1, hd.2.range.symm⟩)
      (fun k d hd => (honly k d hd).imp fun c hc => ⟨hc.1, hc.2.range.symm⟩) A.seqs
    have key : ∀ {q : Repertoire}, WF q → Intact q → q.iter.map charElem =
        (q.iter.map CharObj.cp).map (fun k => ((q.lookup k).map charElem).getD { tag := "" }) := by
      intro q hq hqi
      rw [List.map_map]
      refine List.map_congr_left fun c hc => ?_
      simp [((mem_iter_intact hq hqi c).1 hc).1]
    rw [key A.wf hint, key hwf hi, hcps]
    refine List.map_congr_left fun k hk => ?_
    obtain ⟨c, hc, rfl⟩ := List.mem_map.1 hk
    have hl := ((mem_iter_intact hwf hi c).1 hc).1
    obtain ⟨c', h1, h2⟩ := hthere _ _ hl
    rw [h1, hl]
    simp only [Option.map_some, Option.getD_some]
    unfold charElem
    rw [h2.cp, h2.range, h2.attrs, h2.vars]
  refine ⟨r.iter.map charElem, (s'.tested "char_ascending_order").tested "char_strict_ascending_order",
    by unfold serializeData; simp only [hok, if_true], ?_, hthere, ?_, hperm, A.wf, hint, A.refs, A.strict, ?_, ?_,
    by unfold serializeData; change (if (s'.lgr.rep.iter.map charElem).all Elem.ok = true then _ else _) = _; rw [hagain, hok]; exact congrArg _ hagain,
    by change Rfc7940.addTestResult (Rfc7940.addTestResult s'.checks _ _) _ _ = _; rw [hcs]⟩
  · unfold parseData
    dsimp only
    rw [hs']
  · intro k hk
    obtain ⟨d', hd'⟩ := Option.isSome_iff_exists.1 hk
    obtain ⟨d, hd, -⟩ := honly k d' hd'
    rw [hd]; rfl
  · intro t x
    refine (A.tags t x).trans ?_
    constructor
    · rintro ⟨d, hd, h1, h2⟩
      exact ⟨d.cp, d, (mem_members_iter hwf hi d).1 hd, h1, h2⟩
    · rintro ⟨k, c, hc, h1, h2⟩
      have hk := lookup_cp hc
      subst hk
      exact ⟨c, (mem_members_iter hwf hi c).2 hc, h1, h2⟩
  · intro t
    refine (A.types t).trans ?_
    constructor
    · rintro ⟨d, hd, h1⟩
      exact ⟨d.cp, d, ((mem_iter_intact hwf hi d).1 hd).1, h1⟩
    · rintro ⟨k, c, hc, v, hv, ht⟩
      have hk := lookup_cp hc
      subst hk
      refine ⟨c, (mem_iter_intact hwf hi c).2 ⟨hc, ?_⟩, v, hv, ht⟩
      intro f l hr
      rw [range_variants (lookup_charWF hwf hc) hr] at hv
      simp at hv

/-- **C34, partial** For LGRs built through the API, read leniently (`force`, with IDNA validity not enforced): no
member of a range deleted alone, no forced duplicates, and names and comments that can be written. -/
theorem history_round_trip_partial (ops : List (Ctx × LGR.Op)) (hs : Along RangeSafe {} ops)
    (hd : ∀ p ∈ ops, NoForcedDup p.2) (db : UniDb)
    (hw : ∀ k c, (LGR.run {} ops).rep.lookup k = some c → Words c.attrs.refs ∧ Words c.attrs.tags ∧
      (∀ v ∈ c.getVariants, Words v.refs) ∧ ∀ s ∈ texts c, xmlOk s = true) :
    ∃ es s', serializeData (LGR.run {} ops).rep = .ok es ∧
      parseData db true { lgr := { refs := (LGR.run {} ops).refs, raiseInvalid := false } } es = (s', .ok ()) ∧
      (∀ k c, (LGR.run {} ops).rep.lookup k = some c → ∃ c', s'.lgr.rep.lookup k = some c' ∧ Same c c') ∧
      (∀ k, (s'.lgr.rep.lookup k).isSome → ((LGR.run {} ops).rep.lookup k).isSome) ∧
      s'.lgr.rep.ranges.Perm (LGR.run {} ops).rep.ranges ∧ serializeData s'.lgr.rep = .ok es := by
  have ht := tidy_run ops hd
  obtain ⟨es, s', h1, h2, h3, h4, h5, -, -, -, -, -, -, h6, -⟩ := data_round_trip_partial (db := db) (strict := false) (force := true)
    (m := (LGR.run {} ops).refs) (run_wf ops).1 (C06.intact_history ops hs)
    (fun k c hc => by
      obtain ⟨w1, w2, w3, w4⟩ := hw k c hc
      have t := ht.all k c hc
      exact ⟨fun h => by simp at h, t.defined, w1, w2, w4, fun h => by simp at h,
        fun v hv => ⟨fun h => by simp at h, t.vdefined v hv, w3 v hv, fun h => by simp at h⟩⟩) [] []
  exact ⟨es, s', h1, h2, h3, h4, h5, h6⟩

/-! ## Examples -/

/-- Where IDNA validity and reference values are not checked. -/
def ctx0 : Ctx := { db := none, valid := fun _ => true, pyInt := fun _ => none }

/-- A range with a tag and a reference, a sequence, and a character with variants under context rules. -/
def sample : List (Ctx × LGR.Op) :=
  [(ctx0, .addReference "RFC 7940" none (some "1")),
   (ctx0, .addCp (.seq [100]) { comment := some "d, with \"quotes\"", ref := ["1"], whenR := some "r" }),
   (ctx0, .addRange 97 99 { tag := ["t", "u"], ref := ["1"] }),
   (ctx0, .addCp (.seq [100, 101]) {}),
   (ctx0, .addVariant (.seq [100]) (.seq [120]) (some "blocked") { ref := ["1"], notWhenR := some "s" }),
   (ctx0, .addVariant (.seq [100]) (.seq [97, 98]) none {}),
   (ctx0, .addVariant (.seq [100]) (.seq [120]) (some "") { whenR := some "s" })]

/-- A decidable form of `Readable` without a Unicode database. -/
def readable (m : RefManager) (c : CharObj) : Bool :=
  decide ((∀ i ∈ c.attrs.refs, (dget m.refs i).isSome = true) ∧
  (∀ w ∈ c.attrs.refs, ' ' ∉ w.toList) ∧ c.attrs.refs ≠ [""] ∧
  (∀ w ∈ c.attrs.tags, ' ' ∉ w.toList) ∧ c.attrs.tags ≠ [""] ∧ (∀ s ∈ texts c, xmlOk s = true) ∧
  (c.attrs.whenR = none ∨ c.attrs.notWhenR = none) ∧ c.attrs.refs.Nodup ∧
    c.attrs.tags.Nodup ∧ (c.attrs.tags = [] ∨ c.cp.length = 1) ∧
  ∀ v ∈ c.getVariants, (∀ i ∈ v.refs, (dget m.refs i).isSome = true) ∧
    ((∀ w ∈ v.refs, ' ' ∉ w.toList) ∧ v.refs ≠ [""]) ∧ (v.whenR = none ∨ v.notWhenR = none) ∧ v.refs.Nodup)

theorem readable_of {m : RefManager} {c : CharObj} {strict force : Bool} (h : readable m c = true) :
    Readable none strict force m c := by
  unfold readable at h
  rw [decide_eq_true_iff] at h
  obtain ⟨h1, h2, h3, h4, h5, h6, h7, h8, h9, h10, h11⟩ := h
  exact ⟨fun _ _ h => by simp at h, h1, ⟨h2, h3⟩, ⟨h4, h5⟩, h6, fun _ => ⟨h7, h8, h9, h10⟩,
    fun v hv => ⟨fun _ _ h => by simp at h, (h11 v hv).1, (h11 v hv).2.1, fun _ => (h11 v hv).2.2⟩⟩

/-- The sample meets the conditions of `data_round_trip_partial` with the strict parser. -/
example : WF (LGR.run {} sample).rep ∧ Intact (LGR.run {} sample).rep ∧
    ∀ k c, (LGR.run {} sample).rep.lookup k = some c →
      Readable none true false (LGR.run {} sample).refs c := by
  refine ⟨(run_wf _).1, C06.intact_history _ ?_, fun k c hc => readable_of ?_⟩
  · refine ⟨trivial, trivial, .inl (by decide +kernel), trivial, trivial, trivial, trivial, trivial⟩
  · have : ∀ c ∈ (LGR.run {} sample).rep.allChars, readable (LGR.run {} sample).refs c = true := by decide +kernel
    exact this c ((mem_allChars (run_wf _).1 c).2 (lookup_cp hc ▸ hc))

/-! ## Where it fails -/

/-- **C34, violated** A member of a range deleted alone (`del_cp`) is back after writing and reading. -/
theorem deleted_member_returns : ∃ ops : List (Ctx × LGR.Op), ∃ es s',
    (LGR.run {} ops).rep.lookup [98] = none ∧ serializeData (LGR.run {} ops).rep = .ok es ∧
    parseData none false { lgr := {} } es = (s', .ok ()) ∧ (s'.lgr.rep.lookup [98]).isSome := by
  refine ⟨[(ctx0, .addRange 97 99 {}), (ctx0, .delCp (.seq [98]))], _,
    (parseData none false { lgr := {} } (((LGR.run {} [(ctx0, .addRange 97 99 {}),
      (ctx0, .delCp (.seq [98]))]).rep.iter).map charElem)).1, by decide +kernel, rfl,
    Prod.ext rfl (by decide +kernel), by decide +kernel⟩

/-- **C34, violated** A tag with a space in it is read back as two tags, and the tag `""` is lost: the
API stores any tags, the document separates them by spaces. -/
theorem tags_change : ∃ ops : List (Ctx × LGR.Op), ∃ es s',
    ((LGR.run {} ops).rep.lookup [97]).map (fun c => c.attrs.tags) = some ["a b"] ∧
    ((LGR.run {} ops).rep.lookup [98]).map (fun c => c.attrs.tags) = some [""] ∧
    serializeData (LGR.run {} ops).rep = .ok es ∧
    parseData none false { lgr := {} } es = (s', .ok ()) ∧
    (s'.lgr.rep.lookup [97]).map (fun c => c.attrs.tags) = some ["a", "b"] ∧
    (s'.lgr.rep.lookup [98]).map (fun c => c.attrs.tags) = some [] := by
  refine ⟨[(ctx0, .addCp (.seq [97]) { tag := ["a b"] }), (ctx0, .addCp (.seq [98]) { tag := [""] })], _,
    (parseData none false { lgr := {} } (((LGR.run {} [(ctx0, .addCp (.seq [97]) { tag := ["a b"] }),
      (ctx0, .addCp (.seq [98]) { tag := [""] })]).rep.iter).map charElem)).1,
    by decide +kernel, by decide +kernel, rfl, Prod.ext rfl (by decide +kernel), by decide +kernel, by decide +kernel⟩

/-- **C34, violated** A comment with a control character is accepted by the API, but the LGR cannot be
written: `lxml` raises `ValueError`. -/
theorem control_character : ∃ ops : List (Ctx × LGR.Op),
    (∀ p ∈ ops, NoForcedDup p.2) ∧ (LGR.run {} ops).rep.allChars.length = 1 ∧
    serializeData (LGR.run {} ops).rep = .error .valueError := by
  refine ⟨[(ctx0, .addCp (.seq [97]) { comment := some "\x01" })], ?_, by decide +kernel, ?_⟩
  · intro p hp
    rw [List.mem_singleton] at hp; subst hp
    intro h; simp at h
  · rfl

end Lgr.Props.C34

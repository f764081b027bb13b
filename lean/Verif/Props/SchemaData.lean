import Verif.Props.SchemaText
import Verif.Props.DocData
import Mathlib.Tactic.Abel
import Mathlib.Algebra.Order.Group.Multiset

/-!
# C147: the `<data>` section
-/

namespace Lgr.Props.C147
open Lgr Xml Text RulesXml Schema Repertoire LGR C50 C04 DocXml

variable {x : Lex} {D : String → Pat}

/-- The largest number with six hexadecimal digits. -/
abbrev top : Nat := 0xFFFFFF

/-! ## What an LGR can hold -/

/-- A variant whose strings the schema accepts. -/
structure VarOk (x : Lex) (D : String → Pat) (v : Variant) : Prop where
  cp : ∀ n ∈ v.cp, n ≤ top
  type : ∀ t, v.type = some t → Matches x D (.data .NMTOKEN none 0) [] [.txt t]
  whenR : ∀ r, v.whenR = some r → Matches x D ruleRefP [] [.txt r]
  notWhenR : ∀ r, v.notWhenR = some r → Matches x D ruleRefP [] [.txt r]
  refs : ∀ i ∈ v.refs, Matches x D idP [] [.txt i]

/-- The same of the attributes of a character. -/
structure AttrsOk (x : Lex) (D : String → Pat) (a : Attrs) : Prop where
  whenR : ∀ r, a.whenR = some r → Matches x D ruleRefP [] [.txt r]
  notWhenR : ∀ r, a.notWhenR = some r → Matches x D ruleRefP [] [.txt r]
  refs : ∀ i ∈ a.refs, Matches x D idP [] [.txt i]
  tags : a.tags ≠ [] → Matches x D tagsP [] [.txt (joinS a.tags)]

/-- The same of a character. -/
structure CharOk (x : Lex) (D : String → Pat) (c : CharObj) : Prop where
  cp : ∀ n ∈ c.cp, n ≤ top
  range : ∀ f l, c.range = some (f, l) → f ≤ top ∧ l ≤ top ∧ c.getVariants = []
  attrs : AttrsOk x D c.attrs
  vars : ∀ v ∈ c.getVariants, VarOk x D v

/-! ## Writing -/

theorem var_matches {v : Variant} (h : VarOk x D v) : Matches x D variantP [] [.node (.mk "var" (varAttrs v) none [])] := by
  refine elem_nodes (ns := []) ?_
  have := group_attrs (.attr (n := "cp") (literal_of (x := x) (D := D) h.cp))
    (group_attrs (opt_attr "type" v.type h.type) (group_attrs (opt_attr "when" v.whenR h.whenR)
      (group_attrs (opt_attr "not-when" v.notWhenR h.notWhenR) (group_attrs (opt_text "comment" v.comment)
        (opt_list "ref" v.refs (fun hne => refs_of hne h.refs))))))
  refine perm_attrs this ?_
  unfold varAttrs
  rw [← Multiset.coe_eq_coe]
  simp only [← Multiset.coe_add]
  abel

/-- The attributes of characters and ranges. -/
def common (a : Attrs) : XAttrs :=
  optAttr "comment" a.comment ++ optAttr "when" a.whenR ++ optAttr "not-when" a.notWhenR ++ listAttr "ref" a.refs ++
    listAttr "tag" a.tags

theorem char_matches {c : CharObj} (h : CharOk x D c) :
    Matches x D (.choice charP rangeP) [] [.node (elemNode (charElem c))] := by
  have hr := opt_list (x := x) (D := D) (p := refPatternP) "ref" c.attrs.refs (fun hne => refs_of hne h.attrs.refs)
  have ht := opt_list (x := x) (D := D) (p := tagsP) "tag" c.attrs.tags h.attrs.tags
  have hw := opt_attr (x := x) (D := D) (p := ruleRefP) "when" c.attrs.whenR h.attrs.whenR
  have hn := opt_attr (x := x) (D := D) (p := ruleRefP) "not-when" c.attrs.notWhenR h.attrs.notWhenR
  have hc := opt_text (x := x) (D := D) "comment" c.attrs.comment
  cases hrg : c.range with
  | none =>
    have he : charElem c = { tag := "char", attrs := common c.attrs ++
        [("cp", String.ofList (cpAttr c.cp))], vars := c.getVariants.map varAttrs } := by
      unfold charElem common; rw [hrg]
    rw [he]
    refine .left (elem_nodes ?_)
    have hv := star_nodes (x := x) (D := D) (p := variantP) ((c.getVariants.map varAttrs).map (fun a => Node.mk "var" a none []))
      (by
        intro n hn
        obtain ⟨a, ha, rfl⟩ := List.mem_map.1 hn
        obtain ⟨v, hv, rfl⟩ := List.mem_map.1 ha
        exact var_matches (h.vars v hv))
    have := group_attrs (.attr (n := "cp") (literal_of (x := x) (D := D) h.cp))
      (group_attrs hc (group_attrs hw (group_attrs hn (group_attrs ht (group_attrs hr hv)))))
    refine perm_attrs this ?_
    unfold common
    rw [← Multiset.coe_eq_coe]
    simp only [← Multiset.coe_add]
    rw [Multiset.coe_nil]
    abel
  | some p =>
    obtain ⟨f, l⟩ := p
    obtain ⟨h1, h2, h3⟩ := h.range f l hrg
    have he : charElem c = { tag := "range", attrs := common c.attrs ++
        [("first-cp", String.ofList (cpToStr f)), ("last-cp", String.ofList (cpToStr l))], vars := [] } := by
      unfold charElem common; rw [hrg, h3]; rfl
    rw [he]
    refine .right (elem_nodes (ns := []) ?_)
    have := group_attrs (.attr (n := "first-cp") (codePoint_of (x := x) (D := D) h1))
      (group_attrs (.attr (n := "last-cp") (codePoint_of (x := x) (D := D) h2))
        (group_attrs hc (group_attrs hw (group_attrs hn (group_attrs ht hr)))))
    refine perm_attrs this ?_
    unfold common
    rw [← Multiset.coe_eq_coe]
    rw [show [("first-cp", String.ofList (cpToStr f)), ("last-cp", String.ofList (cpToStr l))] =
      [("first-cp", String.ofList (cpToStr f))] ++ [("last-cp", String.ofList (cpToStr l))] from rfl]
    simp only [← Multiset.coe_add]
    abel

/-- What is written for a repertoire which is not empty. -/
theorem data_matches {r : Repertoire} (hi : Inv (CharOk x D) r) (hne : r.iter ≠ []) {es : List Elem}
    (h : serializeData r = .ok es) : Matches x D dataSectionP [] [.node (.mk "data" [] none (es.map elemNode))] := by
  unfold serializeData at h
  dsimp only at h
  split at h
  · cases h
    refine elem_nodes (plus_nodes _ (by simpa using hne) ?_)
    intro n hn
    obtain ⟨e, he, rfl⟩ := List.mem_map.1 hn
    obtain ⟨c, hc, rfl⟩ := List.mem_map.1 he
    exact char_matches (hi.all _ _ (C26.iter_mem hi.wf hc))
  · simp at h

/-! ## Reading -/

/-- The attributes of an element of the document. -/
structure AttrsIn (x : Lex) (D : String → Pat) (a : XAttrs) : Prop where
  whenR : ∀ v, dget a "when" = some v → Matches x D ruleRefP [] [.txt v]
  notWhenR : ∀ v, dget a "not-when" = some v → Matches x D ruleRefP [] [.txt v]
  cp : ∀ v, dget a "cp" = some v → Matches x D codePointLiteralP [] [.txt v]

/-- A `var` element of the document. -/
structure VarIn (x : Lex) (D : String → Pat) (a : XAttrs) : Prop extends AttrsIn x D a where
  type : ∀ v, dget a "type" = some v → Matches x D (.data .NMTOKEN none 0) [] [.txt v]

/-- An element of `<data>`. -/
structure ElemIn (x : Lex) (D : String → Pat) (e : Elem) : Prop extends AttrsIn x D e.attrs where
  tags : ∀ v, dget e.attrs "tag" = some v → Matches x D tagsP [] [.txt v]
  first : ∀ v, dget e.attrs "first-cp" = some v → Matches x D codePointP [] [.txt v]
  last : ∀ v, dget e.attrs "last-cp" = some v → Matches x D codePointP [] [.txt v]
  vars : ∀ a ∈ e.vars, VarIn x D a
  known : e.tag = "char" ∨ e.tag = "range"

theorem attr_in {p : Pat} {a : XAttrs} {c : List Item} (h : Matches x D p a c) (hd : direct p = true) {k v : String}
    (hk : dget a k = some v) : ∃ q, (k, q) ∈ attrsOf p ∧ Matches x D q [] [.txt v] :=
  attrs_inv h hd k v (mem_of_dget hk)

theorem elem_in {e : Elem} (h : Matches x D (.choice charP rangeP) [] [.node (elemNode e)]) : ElemIn x D e := by
  obtain ⟨q, hq, c, hc, hm⟩ := nodes_inv h (by rfl) (elemNode e) (by simp)
  simp only [charP, rangeP, elemsOf, List.cons_append, List.nil_append, List.mem_cons, List.not_mem_nil, or_false,
    Prod.mk.injEq] at hq
  have ha : (elemNode e).attrs = e.attrs := rfl
  rw [ha] at hm
  rcases hq with ⟨ht, rfl⟩ | ⟨ht, rfl⟩
  · have key : ∀ {k v : String}, dget e.attrs k = some v → _ := fun hk => attr_in hm rfl hk
    simp only [attrsOf, Pat.optional, Pat.zeroOrMore, variantP, List.append_nil, List.cons_append, List.nil_append,
      List.mem_cons, List.not_mem_nil, or_false, Prod.mk.injEq] at key
    have hvars : ∀ a ∈ e.vars, VarIn x D a := by
      intro a hav
      have hn : Item.node (.mk "var" a none []) ∈ c :=
        contents_nodes_inv hc _ (List.mem_map.2 ⟨a, hav, rfl⟩)
      obtain ⟨q, hq, d, hd, hm⟩ := nodes_inv hm rfl _ hn
      simp only [elemsOf, Pat.optional, Pat.zeroOrMore, variantP, List.append_nil, List.nil_append,
        List.mem_cons, List.not_mem_nil, or_false, Prod.mk.injEq, true_and, Node.tag] at hq
      subst hq
      have ha : (Node.mk "var" a none []).attrs = a := rfl
      rw [ha] at hm
      have key : ∀ {k v : String}, dget a k = some v → _ := fun hk => attr_in hm rfl hk
      simp only [attrsOf, Pat.optional, List.append_nil, List.cons_append, List.nil_append,
        List.mem_cons, List.not_mem_nil, or_false, Prod.mk.injEq] at key
      constructor
      · constructor <;> intro v hv <;> obtain ⟨q, hq, h⟩ := key hv <;> simp at hq <;> subst hq <;> exact h
      · intro v hv; obtain ⟨q, hq, h⟩ := key hv; simp at hq; subst hq; exact h
    refine ⟨?_, ?_, ?_, ?_, hvars, .inl ht⟩
    · constructor <;> intro v hv <;> obtain ⟨q, hq, h⟩ := key hv <;> simp at hq <;> subst hq <;> exact h
    · intro v hv; obtain ⟨q, hq, h⟩ := key hv; simp at hq; subst hq; exact h
    · intro v hv; obtain ⟨q, hq, h⟩ := key hv; simp at hq
    · intro v hv; obtain ⟨q, hq, h⟩ := key hv; simp at hq
  · have key : ∀ {k v : String}, dget e.attrs k = some v → _ := fun hk => attr_in hm rfl hk
    simp only [attrsOf, Pat.optional, List.append_nil, List.cons_append, List.nil_append,
      List.mem_cons, List.not_mem_nil, or_false, Prod.mk.injEq] at key
    have hvars : ∀ a ∈ e.vars, VarIn x D a := by
      intro a hav
      have hn : Item.node (.mk "var" a none []) ∈ c :=
        contents_nodes_inv hc _ (List.mem_map.2 ⟨a, hav, rfl⟩)
      obtain ⟨q, hq, -⟩ := nodes_inv hm rfl _ hn
      simp [elemsOf, Pat.optional] at hq
    refine ⟨?_, ?_, ?_, ?_, hvars, .inr ht⟩
    · constructor
      · intro v hv; obtain ⟨q, hq, h⟩ := key hv; simp at hq; subst hq; exact h
      · intro v hv; obtain ⟨q, hq, h⟩ := key hv; simp at hq; subst hq; exact h
      · intro v hv; obtain ⟨q, hq, h⟩ := key hv; simp at hq
    · intro v hv; obtain ⟨q, hq, h⟩ := key hv; simp at hq; subst hq; exact h
    · intro v hv; obtain ⟨q, hq, h⟩ := key hv; simp at hq; subst hq; exact h
    · intro v hv; obtain ⟨q, hq, h⟩ := key hv; simp at hq; subst hq; exact h

/-! ## The state of the parser -/

/-- What holds of an LGR being read. -/
structure Ok (x : Lex) (D : String → Pat) (m : RefManager) (g : LGR) : Prop where
  refs : g.refs = m
  inv : Inv (CharOk x D) g.rep

/-- The known references have valid identifiers. -/
def IdsOk (x : Lex) (D : String → Pat) (m : RefManager) : Prop :=
  ∀ i, (dget m.refs i).isSome = true → Matches x D idP [] [.txt i]

variable {m : RefManager} {g : LGR} {db : UniDb} {force : Bool}

theorem known_ok (hm : IdsOk x D m) (h : g.refs = m) (o : Opts) : ∀ i ∈ knownRefs g o, Matches x D idP [] [.txt i] := by
  intro i hi
  have := (List.mem_filter.1 hi).2
  rw [h] at this
  exact hm i this

theorem attrs_ok (hm : IdsOk x D m) (h : g.refs = m) {e : Elem} (he : ElemIn x D e) :
    AttrsOk x D (mkAttrs (optsOf force e.attrs) (knownRefs g (optsOf force e.attrs))) :=
  ⟨he.whenR, he.notWhenR, known_ok hm h _, list_of (P := fun v => Matches x D tagsP [] [.txt v]) he.tags⟩

theorem getCp_ok {a : XAttrs} (ha : AttrsIn x D a) {cp : Seq} (h : getCp a = .ok cp) : ∀ n ∈ cp, n ≤ top := by
  unfold getCp at h
  split at h
  · simp at h
  · rename_i s hs
    split at h
    · simp at h
    · rename_i cp' hp
      cases h
      exact literal_le (ha.cp s hs) hp

theorem getHex_ok {a : XAttrs} {k : String} (ha : ∀ v, dget a k = some v → Matches x D codePointP [] [.txt v]) {n : Nat}
    (h : getHex a k = .ok n) : n ≤ top := by
  unfold getHex at h
  split at h
  · simp at h
  · rename_i s hs
    split at h
    · simp at h
    · rename_i n' hp
      cases h
      exact codePoint_le (ha s hs) hp

theorem ok_addCp (hm : IdsOk x D m) (h : Ok x D m g) {e : Elem} (he : ElemIn x D e) {cp : Seq} (hc : ∀ n ∈ cp, n ≤ top) :
    Ok x D m (g.addCp db (.seq cp) (optsOf force e.attrs)).1 := by
  cases ho : (g.addCp db (.seq cp) (optsOf force e.attrs)).2 with
  | error er => rw [C02.add_cp_atomic db g _ _ er ho]; exact h
  | ok u =>
    obtain ⟨s, hd, -, hl, -, -, hrf, -⟩ := C50.add_cp_effect db g _ _ ho
    have hs : s = cp := by cases hd; rfl
    subst hs
    refine ⟨by rw [hrf, h.refs], ?_, ?_⟩
    · exact (inv_addCp (P := fun _ => True) ⟨h.inv.wf, fun _ _ _ => trivial⟩ (fun _ _ _ _ => trivial)).wf
    · intro k c hk
      rw [hl] at hk
      split at hk
      · rw [← Option.some.inj hk]
        exact ⟨hc, by simp, attrs_ok hm h.refs he, by rw [fresh_noVars]; simp⟩
      · exact h.inv.all k c hk

/-- `inv_insertRanges` for the ranges which are inserted. -/
theorem inv_insertRanges' {P : CharObj → Prop} {a : Attrs} : ∀ (rs : List (Nat × Nat)) {r : Repertoire},
    (∀ p ∈ rs, ∀ y, p.1 ≤ y → y ≤ p.2 → P (rangeChar p.1 p.2 a y)) →
    (∀ p ∈ rs, P { cp := [p.1], attrs := a }) → Inv P r → Inv P (insertRanges a r rs).1
  | [], r, _, _, h => h
  | (f, l) :: rs, r, h1, h2, h => by
    unfold insertRanges
    split
    · split
      · exact h
      · rename_i r' he
        exact inv_insertRanges' rs (fun p hp => h1 p (List.mem_cons_of_mem _ hp))
          (fun p hp => h2 p (List.mem_cons_of_mem _ hp)) (inv_addChar h (h2 (f, l) (by simp)) he)
    · have hloop : Inv P (r.addRange f l a true).1 := by
        have h1 := h1 (f, l) (by simp)
        unfold Repertoire.addRange
        split
        · exact h
        simp only [if_true, Bool.false_eq_true, if_false]
        have : ∀ (cps : List Nat) {r : Repertoire}, (∀ y ∈ cps, f ≤ y ∧ y ≤ l) → Inv P r →
            Inv P (addRangeLoop f l a r cps).1 := by
          intro cps
          induction cps with
          | nil => intro r _ h; exact h
          | cons y cps ih =>
            intro r hin h
            unfold addRangeLoop
            split
            · rename_i r' he
              have hy := hin y (by simp)
              exact ih (fun z hz => hin z (by simp [hz]))
                (inv_addCharObj h (rangeChar_wf a hy) (h1 y hy.1 hy.2) he)
            · exact h
        have := this (cpRange f l) (fun y hy => mem_cpRange.1 hy) h
        generalize addRangeLoop f l a r (cpRange f l) = res at this
        obtain ⟨r', o⟩ := res
        cases o with
        | ok u => exact inv_ranges this _
        | error e => exact this
      generalize r.addRange f l a true = res at hloop
      obtain ⟨r', o⟩ := res
      cases o with
      | ok u =>
        exact inv_insertRanges' rs (fun p hp => h1 p (List.mem_cons_of_mem _ hp))
          (fun p hp => h2 p (List.mem_cons_of_mem _ hp)) hloop
      | error e => exact hloop

theorem ok_addRange (hm : IdsOk x D m) (h : Ok x D m g) {e : Elem} (he : ElemIn x D e) {f l : Nat} (hl : l ≤ top) :
    Ok x D m (g.addRange db f l (optsOf force e.attrs)).1 := by
  rcases C04.addRange_cases db g f l (optsOf force e.attrs) with ⟨er, hr, -⟩ | ⟨cps, hp, hr⟩
  · rw [hr]; exact h
  · have ha := attrs_ok (force := force) hm h.refs he
    have hins : Inv (CharOk x D) (insertList g.rep cps
        (mkAttrs (optsOf force e.attrs) (knownRefs g (optsOf force e.attrs)))).1 := by
      unfold insertList
      by_cases hne : cps = []
      · subst hne; exact h.inv
      · obtain ⟨rs, h1, h2, h3⟩ := C05.collapse_exact cps hp.nodup hne
        rw [h1]
        have hb : ∀ y, C05.Covers rs y → y ≤ top := fun y hy => by
          have := ((hp.mem y).1 ((h3 y).1 hy)).1.2
          omega
        refine inv_insertRanges' rs (fun p hpr y hy1 hy2 => ?_) (fun p hpr => ?_) h.inv
        · have hle := h2.1 p hpr
          refine ⟨?_, ?_, ha, ?_⟩
          · intro n hn
            simp only [rangeChar, List.mem_singleton] at hn
            subst hn
            exact hb n ⟨p, hpr, hy1, hy2⟩
          · rintro f' l' ⟨⟩
            exact ⟨hb _ ⟨p, hpr, le_refl _, hle⟩, hb _ ⟨p, hpr, hle, le_refl _⟩, fresh_noVars _ _ _⟩
          · unfold rangeChar; rw [fresh_noVars]; simp
        · have hle := h2.1 p hpr
          refine ⟨?_, by simp, ha, by rw [fresh_noVars]; simp⟩
          intro n hn
          simp only [List.mem_singleton] at hn
          subst hn
          exact hb _ ⟨p, hpr, le_refl _, hle⟩
    rw [hr]
    generalize insertList g.rep cps (mkAttrs (optsOf force e.attrs) (knownRefs g (optsOf force e.attrs))) = res at hins
    obtain ⟨r, o⟩ := res
    cases o with
    | ok u => exact ⟨h.refs, hins⟩
    | error er => exact ⟨h.refs, hins⟩

theorem ok_addVariant (hm : IdsOk x D m) (h : Ok x D m g) {a : XAttrs} (ha : VarIn x D a) {cp v : Seq}
    (hv : ∀ n ∈ v, n ≤ top) :
    Ok x D m (g.addVariant db (.seq cp) (.seq v) (dget a "type") (varOptsOf force a)).1 := by
  cases ho : (g.addVariant db (.seq cp) (.seq v) (dget a "type") (varOptsOf force a)).2 with
  | error er => rw [C02.add_variant_atomic db g _ _ _ _ er ho]; exact h
  | ok u =>
    have hw := h.inv.wf
    have hwf := (inv_addVariant (db := db) (g := g) (arg := .seq cp) (var := .seq v) (t := dget a "type")
      (o := varOptsOf force a) (P := fun _ => True) ⟨hw, fun _ _ _ => trivial⟩ (fun _ _ _ _ _ _ _ _ _ => trivial)).wf
    obtain ⟨s, w, c, c', hd1, hd2, hlk, hc1, hcp, hc2, hat, hvs, hl, -, -, -, hrf, -⟩ :=
      add_variant_effect db g hw _ _ _ _ ho
    have hwv : w = v := by cases hd2; rfl
    subst hwv
    refine ⟨by rw [hrf, h.refs], hwf, ?_⟩
    intro k d hk
    rw [hl] at hk
    split at hk
    · rw [← Option.some.inj hk]
      have hR := h.inv.all _ _ hlk
      have hcpe : c'.cp = c.cp := by rw [hcp]; exact (lookup_cp hlk).symm
      refine ⟨by rw [hcpe]; exact hR.cp, by rw [hc2]; simp, by rw [hat]; exact hR.attrs, ?_⟩
      intro u hu
      rcases (hvs u).1 hu with hu | rfl
      · exact hR.vars u hu
      · exact ⟨hv, ha.type, ha.whenR, ha.notWhenR, known_ok hm h.refs _⟩
    · exact h.inv.all k d hk

theorem ok_vars (hm : IdsOk x D m) (cp : Seq) : ∀ (vs : List XAttrs) {s s' : PState}, Ok x D m s.lgr →
    (∀ a ∈ vs, VarIn x D a) → forEach (parseVar db force cp) s vs = (s', .ok ()) → Ok x D m s'.lgr
  | [], s, s', h, _, hf => by
    simp only [forEach, Prod.mk.injEq] at hf
    rw [← hf.1]; exact h
  | a :: vs, s, s', h, ha, hf => by
    simp only [forEach] at hf
    cases hp : parseVar db force cp s a with
    | mk s1 o =>
      rw [hp] at hf
      cases o with
      | error e => simp at hf
      | ok u =>
        refine ok_vars hm cp vs ?_ (fun b hb => ha b (List.mem_cons_of_mem _ hb)) hf
        unfold parseVar at hp
        split at hp
        · simp at hp
        · rename_i v hv
          rw [(C104.guard_ok hp).1]
          exact ok_addVariant hm h (ha a (by simp)) (getCp_ok (ha a (by simp)).toAttrsIn hv)

/-- The repertoire has an entry. -/
def Filled (g : LGR) : Prop := ∃ k c, g.rep.lookup k = some c

theorem filled_addVariant (hw : WF g.rep) (h : Filled g) {cp v : Seq} {t : Option String} {o : Opts} :
    Filled (g.addVariant db (.seq cp) (.seq v) t o).1 := by
  cases ho : (g.addVariant db (.seq cp) (.seq v) t o).2 with
  | error er => rw [C02.add_variant_atomic db g _ _ _ _ er ho]; exact h
  | ok u =>
    obtain ⟨s, w, c, c', -, -, -, -, -, -, -, -, hl, -⟩ := add_variant_effect db g hw _ _ _ _ ho
    exact ⟨s, c', by rw [hl, if_pos rfl]⟩

theorem filled_vars (cp : Seq) (hm : IdsOk x D m) : ∀ (vs : List XAttrs) {s s' : PState}, Ok x D m s.lgr → Filled s.lgr →
    (∀ a ∈ vs, VarIn x D a) → forEach (parseVar db force cp) s vs = (s', .ok ()) → Filled s'.lgr
  | [], s, s', _, h, _, hf => by
    simp only [forEach, Prod.mk.injEq] at hf
    rw [← hf.1]; exact h
  | a :: vs, s, s', hk, h, ha, hf => by
    simp only [forEach] at hf
    cases hp : parseVar db force cp s a with
    | mk s1 o =>
      rw [hp] at hf
      cases o with
      | error e => simp at hf
      | ok u =>
        have hk1 : Ok x D m s1.lgr := ok_vars (db := db) (force := force) hm cp [a] hk
          (fun b hb => ha b (by simp_all)) (by simp [forEach, hp])
        refine filled_vars cp hm vs hk1 ?_ (fun b hb => ha b (List.mem_cons_of_mem _ hb)) hf
        unfold parseVar at hp
        split at hp
        · simp at hp
        · rw [(C104.guard_ok hp).1]
          exact filled_addVariant hk.inv.wf h

theorem ok_elem (hm : IdsOk x D m) {s s' : PState} {e : Elem} (h : Ok x D m s.lgr) (he : ElemIn x D e)
    (hf : parseElem db force s e = (s', .ok ())) : Ok x D m s'.lgr ∧ (force = false → Filled s'.lgr) := by
  unfold parseElem at hf
  by_cases h1 : e.tag = "char"
  · rw [if_pos h1] at hf
    split at hf
    · simp at hf
    · rename_i cp hcp
      dsimp only at hf
      cases hg : guard force (orderCheck s cp) ((orderCheck s cp).lgr.addCp db (.seq cp) (optsOf force e.attrs)) with
      | mk s2 o =>
        rw [hg] at hf
        cases o with
        | error er => simp at hf
        | ok u =>
          obtain ⟨g1, g2⟩ := C104.guard_ok hg
          rw [C104.orderCheck_lgr] at g1 g2
          have hk : Ok x D m s2.lgr := by
            rw [g1]
            exact ok_addCp hm h he (getCp_ok he.toAttrsIn hcp)
          refine ⟨ok_vars hm cp e.vars hk he.vars hf, fun hfc => filled_vars cp hm e.vars hk ?_ he.vars hf⟩
          rcases g2 with g2 | g2
          · obtain ⟨t, -, -, hl, -⟩ := C50.add_cp_effect db s.lgr _ _ g2
            rw [g1]
            exact ⟨t, _, by rw [hl, if_pos rfl]⟩
          · rw [hfc] at g2; cases g2
  · rw [if_neg h1] at hf
    have h2 : e.tag = "range" := he.known.resolve_left h1
    rw [if_pos h2] at hf
    split at hf
    · simp at hf
    · rename_i f _
      split at hf
      · simp at hf
      · rename_i l hl
        obtain ⟨g1, g2⟩ := C104.guard_ok hf
        refine ⟨by rw [g1]; exact ok_addRange hm h he (getHex_ok he.last hl), fun hfc => ?_⟩
        rcases g2 with g2 | g2
        · obtain ⟨hfl, rs, -, -, hin, -, -, -, -, -, -, hrs⟩ := add_range_exact db s.lgr h.inv.wf f l _ g2
          rw [g1]
          exact ⟨[f], _, hin (f, l) (by rw [hrs hfc]; simp) f (le_refl _) hfl⟩
        · rw [hfc] at g2; cases g2

theorem filled_elem {s s' : PState} {e : Elem} (hk : Ok x D m s.lgr) (hm : IdsOk x D m) (he : ElemIn x D e)
    (hfc : force = false) (hf : parseElem db force s e = (s', .ok ())) : Filled s'.lgr :=
  (ok_elem hm hk he hf).2 hfc

theorem ok_elems (hm : IdsOk x D m) : ∀ (es : List Elem) {s s' : PState}, Ok x D m s.lgr → (∀ e ∈ es, ElemIn x D e) →
    forEach (parseElem db force) s es = (s', .ok ()) →
    Ok x D m s'.lgr ∧ (force = false → es ≠ [] → Filled s'.lgr)
  | [], s, s', h, _, hf => by
    simp only [forEach, Prod.mk.injEq] at hf
    rw [← hf.1]; exact ⟨h, fun _ h => absurd rfl h⟩
  | e :: es, s, s', h, ha, hf => by
    simp only [forEach] at hf
    cases hp : parseElem db force s e with
    | mk s1 o =>
      rw [hp] at hf
      cases o with
      | error e => simp at hf
      | ok u =>
        obtain ⟨k1, k2⟩ := ok_elem hm h (ha e (by simp)) hp
        have := ok_elems hm es k1 (fun b hb => ha b (List.mem_cons_of_mem _ hb)) hf
        refine ⟨this.1, fun hfc _ => ?_⟩
        cases es with
        | nil =>
          simp only [forEach, Prod.mk.injEq] at hf
          rw [← hf.1]; exact k2 hfc
        | cons e' es => exact this.2 hfc (by simp)

theorem ok_new (m : RefManager) (strict : Bool) : Ok x D m { refs := m, raiseInvalid := strict } := by
  refine ⟨rfl, wf_empty, ?_⟩
  intro k c hk
  cases k <;> simp [lookup, bucket, dget] at hk

theorem ok_data (hm : IdsOk x D m) {strict : Bool} {cs : Rfc7940.Results} {es : List Elem}
    (ha : ∀ e ∈ es, ElemIn x D e) {s' : PState}
    (h : parseData db force { lgr := { refs := m, raiseInvalid := strict }, checks := cs } es = (s', .ok ())) :
    Ok x D m s'.lgr ∧ (force = false → es ≠ [] → Filled s'.lgr) := by
  unfold parseData at h
  cases hf : forEach (parseElem db force) { lgr := { refs := m, raiseInvalid := strict }, checks := cs, prev := [] } es with
  | mk s1 o =>
    rw [hf] at h
    cases o with
    | error e => simp at h
    | ok u =>
      simp only [Prod.mk.injEq] at h
      rw [← h.1]
      have := ok_elems hm es (ok_new m strict) ha hf
      exact this

/-- A repertoire with an entry is not empty. -/
theorem iter_ne {r : Repertoire} (hw : WF r) {k : Seq} {c : CharObj} (h : r.lookup k = some c) : r.iter ≠ [] := by
  cases k with
  | nil => simp [lookup] at h
  | cons i t =>
    have hb : (dget r.dict i).isSome = true := by
      simp only [lookup, bucket] at h
      cases hd : dget r.dict i with
      | none => rw [hd] at h; simp at h
      | some l => rfl
    have hi : i ∈ sortAsc id (r.dict.map Prod.fst) := (mem_sortAsc _).2 (dget_isSome.1 hb)
    unfold iter
    cases hs : sortAsc id (r.dict.map Prod.fst) with
    | nil => rw [hs] at hi; simp at hi
    | cons j ks =>
      have hj : j ∈ r.dict.map Prod.fst := (mem_sortAsc _).1 (by rw [hs]; simp : j ∈ sortAsc id (r.dict.map Prod.fst))
      obtain ⟨l, hl⟩ := Option.isSome_iff_exists.1 (dget_isSome.2 hj)
      have hne : r.bucket j ≠ [] := by
        unfold bucket
        rw [hl]
        exact hw.nonempty _ (mem_of_dget hl)
      obtain ⟨c', hc'⟩ := List.exists_mem_of_ne_nil _ hne
      have hm : c' ∈ sortAsc CharObj.len (r.bucket j) := (mem_sortAsc _).2 hc'
      unfold iterKeys
      cases hsb : sortAsc CharObj.len (r.bucket j) with
      | nil => rw [hsb] at hm; simp at hm
      | cons d bs =>
        have : (iterBucket none (d :: bs)).2 ≠ [] := by
          unfold iterBucket
          cases d.range <;> simp
        intro he
        simp only [List.append_eq_nil_iff] at he
        exact this he.1

end Lgr.Props.C147

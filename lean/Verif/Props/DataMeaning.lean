import Verif.Props.DocXmlWrong

/-!
# C105: the entries of an LGR are exactly the elements of the data section
-/

namespace Lgr.Props.C105
open Lgr Xml Text Repertoire LGR C50 C04 C40 C34 C06 DocXml

/-! ## What the elements say -/

/-- The words of an attribute, separated by white space; none when there is no attribute. -/
def Listed (x : XAttrs) (key : String) (ws : List String) : Prop :=
  C102.Words ((dget x key).getD "").toList (ws.map String.toList)

/-- The code points a `cp` attribute spells. -/
def Spells (x : XAttrs) (cp : Seq) : Prop :=
  ∃ s ws, dget x "cp" = some s ∧ C102.Words s.toList ws ∧ List.Forall₂ C102.Hex ws cp

/-- The code point an attribute spells. -/
def SpellsOne (x : XAttrs) (key : String) (n : Nat) : Prop := ∃ s, dget x key = some s ∧ C102.Hex s.toList n

/-- The common attributes of an element. -/
def AttrsSay (x : XAttrs) (a : Attrs) : Prop :=
  a.comment = dget x "comment" ∧ a.whenR = dget x "when" ∧ a.notWhenR = dget x "not-when" ∧
    Listed x "ref" a.refs ∧ Listed x "tag" a.tags

/-- What a `var` element says. -/
def VarSays (x : XAttrs) (v : Variant) : Prop :=
  Spells x v.cp ∧ v.type = dget x "type" ∧ v.comment = dget x "comment" ∧ v.whenR = dget x "when" ∧
    v.notWhenR = dget x "not-when" ∧ Listed x "ref" v.refs

/-- What an element of the data section is about. -/
inductive Item where
  | char (cp : Seq) (a : Attrs) (vs : List Variant)
  | range (f l : Nat) (a : Attrs)

/-- What an element of the data section says. -/
inductive Says : Elem → Item → Prop where
  | char {e : Elem} {cp : Seq} {a : Attrs} {vs : List Variant} : e.tag = "char" → Spells e.attrs cp → AttrsSay e.attrs a →
      List.Forall₂ VarSays e.vars vs → Says e (.char cp a vs)
  | range {e : Elem} {f l : Nat} {a : Attrs} : e.tag = "range" → SpellsOne e.attrs "first-cp" f →
      SpellsOne e.attrs "last-cp" l → AttrsSay e.attrs a → Says e (.range f l a)

/-- What a data section says. Elements which are neither `char` nor `range` say nothing. -/
inductive Means : List Elem → List Item → Prop where
  | nil : Means [] []
  | skip {e : Elem} {es : List Elem} {is : List Item} : e.tag ≠ "char" → e.tag ≠ "range" → Means es is → Means (e :: es) is
  | item {e : Elem} {es : List Elem} {i : Item} {is : List Item} : Says e i → Means es is → Means (e :: es) (i :: is)

/-- The sequences an item puts into the repertoire. -/
def Item.Has : Item → Seq → Prop
  | .char cp _ _, k => k = cp
  | .range f l _, k => ∃ x, f ≤ x ∧ x ≤ l ∧ k = [x]

/-- The attributes of an item. -/
def Item.attrs : Item → Attrs
  | .char _ a _ => a
  | .range _ _ a => a

/-- The variants of an item. -/
def Item.vars : Item → List Variant
  | .char _ _ vs => vs
  | .range _ _ _ => []

/-- The range declared by an item. -/
def Item.span : Item → Option (Nat × Nat)
  | .char _ _ _ => none
  | .range f l _ => if f = l then none else some (f, l)

/-- The entry is the one an item asks for. -/
def Holds (i : Item) (k : Seq) (c : CharObj) : Prop :=
  i.Has k ∧ c.cp = k ∧ c.attrs = i.attrs ∧ c.range = i.span ∧ ∀ v, v ∈ c.getVariants ↔ v ∈ i.vars

/-- What the items are checked against: the defined references, IDNA validity. -/
structure Given where
  defined : String → Prop
  valid : Nat → Prop

/-- At most one kind of context rule, references defined and distinct. -/
def Given.Plain (G : Given) (w n : Option String) (refs : List String) : Prop :=
  (w = none ∨ n = none) ∧ (∀ r ∈ refs, G.defined r) ∧ refs.Nodup

/-- An item is accepted: its code points are valid, ranges are in order, tags are distinct and not on
sequences, variants are distinct by code points and context rules. -/
def Given.Fine (G : Given) (i : Item) : Prop :=
  G.Plain i.attrs.whenR i.attrs.notWhenR i.attrs.refs ∧ i.attrs.tags.Nodup ∧
  (∀ k, i.Has k → k ≠ [] ∧ (∀ x ∈ k, G.valid x) ∧ (i.attrs.tags = [] ∨ k.length = 1)) ∧
  (∃ k, i.Has k) ∧
  (∀ v ∈ i.vars, v.cp ≠ [] ∧ (∀ x ∈ v.cp, G.valid x) ∧ G.Plain v.whenR v.notWhenR v.refs) ∧
  (i.vars.map Variant.key).Nodup

/-- No sequence is in two items. -/
def Apart (is : List Item) : Prop := is.Pairwise (fun i j => ∀ k, i.Has k → ¬ j.Has k)

/-- Lists of words are separated by single spaces. -/
def Tidy (x : XAttrs) (key : String) : Prop :=
  ∃ ws, C102.Words ((dget x key).getD "").toList ws ∧ join ' ' ws = ((dget x key).getD "").toList

/-- All lists of an element are separated by single spaces. -/
def ElemTidy (e : Elem) : Prop := Tidy e.attrs "ref" ∧ Tidy e.attrs "tag" ∧ ∀ x ∈ e.vars, Tidy x "ref"

/-! ## Words -/

theorem words_no_space {s : List Char} {ws : List (List Char)} (h : C102.Words s ws) :
    ∀ w ∈ ws, w ≠ [] ∧ ∀ c ∈ w, isSpace c = false := by
  induction h with
  | nil _ _ => simp
  | cons sp w rest ws h1 h2 h3 h4 _ ih =>
    intro u hu
    rcases List.mem_cons.1 hu with rfl | hu
    · exact ⟨h2, h3⟩
    · exact ih u hu

theorem map_toList_inj {l m : List String} (h : l.map String.toList = m.map String.toList) : l = m := by
  have := congrArg (List.map String.ofList) h
  simpa [List.map_map, Function.comp_def] using this

theorem listed_iff {x : XAttrs} {key : String} (ht : Tidy x key) {ws : List String} :
    Listed x key ws ↔ getList x key = ws := by
  obtain ⟨us, h1, h2⟩ := ht
  have hg : (getList x key).map String.toList = us := by
    unfold getList splitS
    rw [List.map_map]
    have : (String.toList ∘ String.ofList) = id := by funext l; simp
    rw [this, List.map_id]
    unfold stringToList
    rw [← h2]
    cases us with
    | nil => rfl
    | cons u us =>
      have hn := words_no_space h1
      rw [if_pos, splitOn_join ' ' _ (by simp)]
      · intro w hw c hc
        rintro rfl
        have := (hn w hw).2 _ hc
        revert this; decide
      · have := (hn u (by simp)).1
        cases us with
        | nil => simpa [join] using List.length_pos_of_ne_nil this
        | cons v us => simp [join]
  unfold Listed
  constructor
  · intro h
    apply map_toList_inj
    rw [hg, ← C102.words_split h1, C102.words_split h]
  · rintro rfl
    rw [hg]; exact h1

theorem spells_iff {x : XAttrs} {cp : Seq} : Spells x cp ↔ getCp x = .ok cp := by
  unfold Spells getCp parseCpAttr
  cases dget x "cp" with
  | none => simp
  | some s =>
    obtain ⟨ws, hw⟩ := C102.words_exist s.toList
    have hs := C102.words_split hw
    simp only [Option.some.injEq]
    constructor
    · rintro ⟨s', ws', rfl, h1, h2⟩
      rw [C102.words_split h1, C102.mapM_hex h2]
    · intro h
      refine ⟨s, ws, rfl, hw, ?_⟩
      rw [hs] at h
      cases hm : ws.mapM parseHex with
      | none => rw [hm] at h; cases h
      | some cps =>
        rw [hm] at h
        injection h with h
        subst h
        exact (TableSyntax.mapM_opt_iff (fun a b => C102.hex_iff)).1 hm

theorem spellsOne_iff {x : XAttrs} {key : String} {n : Nat} : SpellsOne x key n ↔ getHex x key = .ok n := by
  unfold SpellsOne getHex
  cases dget x key with
  | none => simp
  | some s =>
    simp only [Option.some.injEq, exists_eq_left']
    rw [← C102.hex_iff]
    cases parseHex s.toList <;> simp

/-! ## One step -/

/-- What a reader checks against: the references of the metadata; IDNA validity, if there is a Unicode
database and the reader is strict. -/
def given (db : UniDb) (strict : Bool) (m : RefManager) : Given :=
  { defined := fun r => (dget m.refs r).isSome = true
    valid := fun x => strict = true → ∀ valid, db = some valid → valid x = true }

variable {db : UniDb} {strict : Bool} {m : RefManager}

/-- The state of the LGR which matters here. -/
structure At (strict : Bool) (m : RefManager) (g : LGR) : Prop where
  wf : WF g.rep
  refs : g.refs = m
  raises : g.raiseInvalid = strict

/-- Reading an item has the effect it should. -/
structure Step (i : Item) (g g' : LGR) : Prop where
  new : ∀ k, i.Has k → ∃ c, g'.rep.lookup k = some c ∧ Holds i k c
  old : ∀ k, ¬ i.Has k → g'.rep.lookup k = g.rep.lookup k
  tags : ∀ t x, x ∈ tagSet g' t ↔ x ∈ tagSet g t ∨ (t ∈ i.attrs.tags ∧ ∃ k, i.Has k ∧ x ∈ k)
  types : ∀ t, t ∈ g'.types ↔ t ∈ g.types ∨ ∃ v ∈ i.vars, v.type = t

theorem guard_ok {s s' : PState} {r : LGR × Except Err Unit} :
    Xml.guard false s r = (s', .ok ()) ↔ r.2 = .ok () ∧ s' = { s with lgr := r.1 } := by
  obtain ⟨g, o⟩ := r
  cases o with
  | ok u => simp [Xml.guard, eq_comm]
  | error e => simp only [Xml.guard]; split <;> simp

theorem idnaOk_iff {g : LGR} (h : At strict m g) {s : Seq} :
    IdnaOk db g s ↔ ∀ x ∈ s, (given db strict m).valid x := by
  unfold IdnaOk given
  rw [h.raises]
  exact ⟨fun h x hx hs v hv => h hs v hv x hx, fun h hs v hv x hx => h x hx hs v hv⟩

theorem strict_iff {g : LGR} (h : At strict m g) {o : Opts} :
    Strict g o ↔ (given db strict m).Plain o.whenR o.notWhenR o.ref := by
  unfold Strict RefsOk Given.Plain given
  rw [h.refs]

theorem known_eq {g : LGR} {o : Opts} (h : Strict g o) : knownRefs g o = o.ref := by
  unfold knownRefs
  rw [List.filter_eq_self]
  exact h.2.1

/-- A `var` element is read iff it is a new variant, and adds it. -/
theorem var_iff {g : LGR} (h : At strict m g) {s : PState} (hs : s.lgr = g) {cp : Seq} {c : CharObj}
    (hcp : cp ≠ []) (hv : ∀ x ∈ cp, (given db strict m).valid x) (hl : g.rep.lookup cp = some c) (hr : c.range = none)
    {x : XAttrs} (ht : Tidy x "ref") :
    (∃ s', parseVar db false cp s x = (s', .ok ())) ↔ ∃ v, VarSays x v ∧ v.cp ≠ [] ∧
      (∀ x ∈ v.cp, (given db strict m).valid x) ∧ (given db strict m).Plain v.whenR v.notWhenR v.refs ∧
      ∀ u ∈ c.getVariants, u.key ≠ v.key := by
  subst hs
  unfold parseVar
  constructor
  · rintro ⟨s', hp⟩
    cases hg : getCp x with
    | error e => rw [hg] at hp; cases hp
    | ok w =>
      rw [hg] at hp
      simp only at hp
      rw [guard_ok] at hp
      obtain ⟨k, w', c', d1, -, d2, i2, -, l', -, nv, st⟩ := (add_variant_ok_iff db _ h.wf _ _ _ _).1 hp.1
      have e1 : k = cp := by cases d1; rfl
      have e2 : w' = w := by cases d2; rfl
      subst e1 e2
      rw [hl] at l'
      cases l'
      refine ⟨⟨w', dget x "type", dget x "when", dget x "not-when", dget x "comment", getList x "ref"⟩,
        ⟨spells_iff.2 hg, rfl, rfl, rfl, rfl, (listed_iff ht).2 rfl⟩, denotes_ne d2, (idnaOk_iff h).1 i2,
        (strict_iff h).1 (st rfl), ?_⟩
      intro u hu hk
      exact nv ⟨u, hu, hk⟩
  · rintro ⟨v, ⟨v1, v2, v3, v4, v5, v6⟩, hne, hval, hpl, hnew⟩
    rw [spells_iff.1 v1]
    simp only
    refine ⟨_, guard_ok.2 ⟨?_, rfl⟩⟩
    refine (add_variant_ok_iff db _ h.wf _ _ _ _).2 ⟨cp, v.cp, c, .seq _ hcp, (idnaOk_iff h).2 hv, .seq _ hne,
      (idnaOk_iff h).2 hval, (by intro _ hc; cases hc), hl, hr, ?_, fun _ => ?_⟩
    · rintro ⟨u, hu, hk⟩
      refine hnew u hu ?_
      rw [hk]
      simp [Variant.key, varOptsOf, v4, v5]
    · refine (strict_iff (db := db) h).2 ?_
      have : getList x "ref" = v.refs := (listed_iff ht).1 v6
      simpa [varOptsOf, this, v4, v5] using hpl

theorem var_effect {s s' : PState} (h : At strict m s.lgr) {cp : Seq} {c : CharObj}
    (hl : s.lgr.rep.lookup cp = some c) {x : XAttrs} (ht : Tidy x "ref") {v : Variant} (hx : VarSays x v)
    (hp : parseVar db false cp s x = (s', .ok ())) :
    At strict m s'.lgr ∧ ∃ c', s'.lgr.rep.lookup cp = some c' ∧ c'.cp = cp ∧ c'.range = none ∧ c'.attrs = c.attrs ∧
      (∀ u, u ∈ c'.getVariants ↔ u ∈ c.getVariants ∨ u = v) ∧
      (∀ k, k ≠ cp → s'.lgr.rep.lookup k = s.lgr.rep.lookup k) ∧ s'.lgr.tagCls = s.lgr.tagCls ∧
      (∀ t, t ∈ s'.lgr.types ↔ t ∈ s.lgr.types ∨ t = v.type) := by
  unfold parseVar at hp
  obtain ⟨v1, v2, v3, v4, v5, v6⟩ := hx
  rw [spells_iff.1 v1] at hp
  simp only at hp
  rw [guard_ok] at hp
  obtain ⟨hok, rfl⟩ := hp
  have hw := C30.wf_addVariant (db := db) h.wf (.seq cp) (.seq v.cp) (dget x "type") (varOptsOf false x)
  obtain ⟨-, -, -, -, -, -, -, -, -, -, -, st⟩ := (add_variant_ok_iff db _ h.wf _ _ _ _).1 hok
  obtain ⟨k, w, c1, c', d1, d2, l1, r1, e1, r2, e2, hv, hk, -, hty, htg, hrf, hri⟩ := add_variant_effect db _ h.wf _ _ _ _ hok
  have ek : k = cp := by cases d1; rfl
  have ew : w = v.cp := by cases d2; rfl
  subst ek ew
  rw [hl] at l1
  cases l1
  refine ⟨⟨hw, by rw [hrf]; exact h.refs, by rw [hri]; exact h.raises⟩, c', by rw [hk, if_pos rfl], e1, r2, e2, ?_,
    fun k' hk' => by rw [hk, if_neg hk'], htg, ?_⟩
  · intro u
    rw [hv, known_eq (st rfl)]
    have : getList x "ref" = v.refs := (listed_iff ht).1 v6
    have hvv : v = ⟨v.cp, dget x "type", dget x "when", dget x "not-when", dget x "comment", getList x "ref"⟩ := by
      rw [← v2, ← v3, ← v4, ← v5, this]
    rw [hvv]
    rfl
  · intro t
    rw [hty, v2]

theorem varSays_unique {x : XAttrs} (ht : Tidy x "ref") {v w : Variant} (hv : VarSays x v) (hw : VarSays x w) : v = w := by
  obtain ⟨v1, v2, v3, v4, v5, v6⟩ := hv
  obtain ⟨w1, w2, w3, w4, w5, w6⟩ := hw
  have e1 := (spells_iff.1 v1).symm.trans (spells_iff.1 w1)
  have e6 := ((listed_iff ht).1 v6).symm.trans ((listed_iff ht).1 w6)
  injection e1 with e1
  cases v; cases w
  simp_all

/-- The `var` elements of a `char`. -/
theorem vars_read {xs : List XAttrs} (ht : ∀ x ∈ xs, Tidy x "ref") {s : PState} (h : At strict m s.lgr) {cp : Seq}
    {c : CharObj} (hcp : cp ≠ []) (hv : ∀ x ∈ cp, (given db strict m).valid x) (hl : s.lgr.rep.lookup cp = some c)
    (hr : c.range = none) (hc : c.cp = cp) :
    ((∃ s', forEach (parseVar db false cp) s xs = (s', .ok ())) ↔ ∃ vs, List.Forall₂ VarSays xs vs ∧
      (∀ v ∈ vs, v.cp ≠ [] ∧ (∀ x ∈ v.cp, (given db strict m).valid x) ∧
        (given db strict m).Plain v.whenR v.notWhenR v.refs) ∧ (vs.map Variant.key).Nodup ∧
      ∀ u ∈ c.getVariants, ∀ v ∈ vs, u.key ≠ v.key) ∧
    ∀ vs s', List.Forall₂ VarSays xs vs → forEach (parseVar db false cp) s xs = (s', .ok ()) →
      At strict m s'.lgr ∧ ∃ c', s'.lgr.rep.lookup cp = some c' ∧ c'.cp = cp ∧ c'.range = none ∧ c'.attrs = c.attrs ∧
        (∀ u, u ∈ c'.getVariants ↔ u ∈ c.getVariants ∨ u ∈ vs) ∧
        (∀ k, k ≠ cp → s'.lgr.rep.lookup k = s.lgr.rep.lookup k) ∧ s'.lgr.tagCls = s.lgr.tagCls ∧
        (∀ t, t ∈ s'.lgr.types ↔ t ∈ s.lgr.types ∨ ∃ v ∈ vs, v.type = t) := by
  induction xs generalizing s c with
  | nil =>
    constructor
    · constructor
      · rintro -
        exact ⟨[], .nil, by simp, by simp, by simp⟩
      · rintro -
        exact ⟨s, rfl⟩
    · rintro vs s' hvs hp
      cases hvs
      cases hp
      exact ⟨h, c, hl, hc, hr, rfl, by simp, by simp, rfl, by simp⟩
  | cons x xs ih =>
    have hx := ht x (by simp)
    have hxs := fun y hy => ht y (List.mem_cons_of_mem _ hy)
    constructor
    · constructor
      · rintro ⟨s', hp⟩
        obtain ⟨s1, hp1, hp2⟩ := C101.forEach_cons.1 hp
        obtain ⟨v, v1, v2, v3, v4, v5⟩ := (var_iff h rfl hcp hv hl hr hx).1 ⟨s1, hp1⟩
        obtain ⟨h1, c1, l1, c1c, r1, -, g1, -, -, -⟩ := var_effect h hl hx v1 hp1
        obtain ⟨vs, w1, w2, w3, w4⟩ := ((ih hxs h1 l1 r1 c1c).1).1 ⟨s', hp2⟩
        refine ⟨v :: vs, .cons v1 w1, ?_, ?_, ?_⟩
        · intro u hu
          rcases List.mem_cons.1 hu with rfl | hu
          · exact ⟨v2, v3, v4⟩
          · exact w2 u hu
        · rw [List.map_cons, List.nodup_cons]
          refine ⟨fun hm => ?_, w3⟩
          obtain ⟨w, hw, hk⟩ := List.mem_map.1 hm
          exact w4 v ((g1 v).2 (.inr rfl)) w hw hk.symm
        · intro u hu w hw
          rcases List.mem_cons.1 hw with rfl | hw
          · exact v5 u hu
          · exact w4 u ((g1 u).2 (.inl hu)) w hw
      · rintro ⟨vs, w1, w2, w3, w4⟩
        cases w1 with
        | @cons _ v _ vs v1 w1 =>
          obtain ⟨a1, a2, a3⟩ := w2 v (by simp)
          obtain ⟨s1, hp1⟩ := (var_iff (db := db) h rfl hcp hv hl hr hx).2 ⟨v, v1, a1, a2, a3, fun u hu => w4 u hu v (by simp)⟩
          obtain ⟨h1, c1, l1, c1c, r1, -, g1, -, -, -⟩ := var_effect h hl hx v1 hp1
          rw [List.map_cons, List.nodup_cons] at w3
          obtain ⟨s', hp2⟩ := ((ih hxs h1 l1 r1 c1c).1).2 ⟨vs, w1, fun u hu => w2 u (by simp [hu]), w3.2, by
            intro u hu w hw
            rcases (g1 u).1 hu with hu | rfl
            · exact w4 u hu w (by simp [hw])
            · intro hk
              exact w3.1 (List.mem_map.2 ⟨w, hw, hk.symm⟩)⟩
          exact ⟨s', C101.forEach_cons.2 ⟨s1, hp1, hp2⟩⟩
    · rintro vs s' hvs hp
      cases hvs with
      | @cons _ v _ vs v1 w1 =>
        obtain ⟨s1, hp1, hp2⟩ := C101.forEach_cons.1 hp
        obtain ⟨h1, c1, l1, c1c, r1, at1, g1, k1, t1, ty1⟩ := var_effect h hl hx v1 hp1
        obtain ⟨h2, c2, l2, c2c, r2, at2, g2, k2, t2, ty2⟩ := (ih hxs h1 l1 r1 c1c).2 vs s' w1 hp2
        refine ⟨h2, c2, l2, c2c, r2, at2.trans at1, ?_, fun k hk => (k2 k hk).trans (k1 k hk), t2.trans t1, ?_⟩
        · intro u
          rw [g2, g1, List.mem_cons]
          tauto
        · intro t
          rw [ty2, ty1]
          simp only [List.mem_cons, exists_eq_or_imp]
          rw [or_assoc, eq_comm (a := t)]

theorem attrsSay_iff {x : XAttrs} (h1 : Tidy x "ref") (h2 : Tidy x "tag") {a : Attrs} :
    AttrsSay x a ↔ a = ⟨dget x "comment", getList x "ref", getList x "tag", dget x "when", dget x "not-when"⟩ := by
  unfold AttrsSay
  rw [listed_iff h1, listed_iff h2]
  cases a
  simp only [Attrs.mk.injEq]
  constructor
  · rintro ⟨rfl, rfl, rfl, rfl, rfl⟩; exact ⟨rfl, rfl, rfl, rfl, rfl⟩
  · rintro ⟨rfl, rfl, rfl, rfl, rfl⟩; exact ⟨rfl, rfl, rfl, rfl, rfl⟩

theorem order_lgr (s : PState) (cp : Seq) : (orderCheck s cp).lgr = s.lgr := by
  unfold orderCheck
  dsimp only
  split
  · split <;> rfl
  · rfl

theorem char_read {e : Elem} (htag : e.tag = "char") (ht : ElemTidy e) {s : PState} (h : At strict m s.lgr) :
    ((∃ s', parseElem db false s e = (s', .ok ())) ↔
      ∃ i, Says e i ∧ (given db strict m).Fine i ∧ ∀ k, i.Has k → s.lgr.rep.lookup k = none) ∧
    ∀ i s', Says e i → parseElem db false s e = (s', .ok ()) → At strict m s'.lgr ∧ Step i s.lgr s'.lgr := by
  obtain ⟨t1, t2, t3⟩ := ht
  have hpe : ∀ {cp}, getCp e.attrs = .ok cp → ∀ s', parseElem db false s e = (s', .ok ()) ↔
      (s.lgr.addCp db (.seq cp) (optsOf false e.attrs)).2 = .ok () ∧
      forEach (parseVar db false cp) { orderCheck s cp with lgr := (s.lgr.addCp db (.seq cp) (optsOf false e.attrs)).1 } e.vars =
        (s', .ok ()) := by
    intro cp hg s'
    unfold parseElem
    rw [if_pos htag, hg]
    dsimp only
    rw [order_lgr]
    constructor
    · intro hp
      cases hq : Xml.guard false (orderCheck s cp) (s.lgr.addCp db (.seq cp) (optsOf false e.attrs)) with
      | mk s2 o =>
        rw [hq] at hp
        cases o with
        | error er => cases hp
        | ok u =>
          obtain ⟨h1, rfl⟩ := guard_ok.1 hq
          exact ⟨h1, hp⟩
    · rintro ⟨h1, h2⟩
      rw [guard_ok.2 ⟨h1, rfl⟩]
      exact h2
  have hfresh : ∀ {cp}, (s.lgr.addCp db (.seq cp) (optsOf false e.attrs)).2 = .ok () →
      At strict m (s.lgr.addCp db (.seq cp) (optsOf false e.attrs)).1 ∧ cp ≠ [] ∧ s.lgr.rep.lookup cp = none ∧
      (∀ x ∈ cp, (given db strict m).valid x) ∧ Strict s.lgr (optsOf false e.attrs) ∧ StrictTags cp (optsOf false e.attrs) ∧
      (∀ k, (s.lgr.addCp db (.seq cp) (optsOf false e.attrs)).1.rep.lookup k = if k = cp then some { cp := cp, attrs :=
        ⟨dget e.attrs "comment", getList e.attrs "ref", getList e.attrs "tag", dget e.attrs "when", dget e.attrs "not-when"⟩ }
        else s.lgr.rep.lookup k) ∧
      (∀ t x, x ∈ tagSet (s.lgr.addCp db (.seq cp) (optsOf false e.attrs)).1 t ↔
        x ∈ tagSet s.lgr t ∨ (t ∈ getList e.attrs "tag" ∧ x ∈ cp)) ∧
      (s.lgr.addCp db (.seq cp) (optsOf false e.attrs)).1.types = s.lgr.types := by
    intro cp hok
    have hw := C30.wf_addCp (db := db) h.wf (.seq cp) (optsOf false e.attrs)
    obtain ⟨k, d, hi, -, hn, hst⟩ := (add_cp_ok_iff db _ _ _).1 hok
    obtain ⟨k', d', hn', hl, -, htg, hrf, hty, hri⟩ := add_cp_effect db _ _ _ hok
    have e1 : k = cp := by cases d; rfl
    have e2 : k' = cp := by cases d'; rfl
    subst e1 e2
    rw [known_eq (hst rfl).1] at hl
    exact ⟨⟨hw, by rw [hrf]; exact h.refs, by rw [hri]; exact h.raises⟩, denotes_ne d, hn, (idnaOk_iff h).1 hi,
      (hst rfl).1, (hst rfl).2, hl, htg, hty⟩
  constructor
  · constructor
    · rintro ⟨s', hp⟩
      cases hg : getCp e.attrs with
      | error er =>
        unfold parseElem at hp
        rw [if_pos htag, hg] at hp
        cases hp
      | ok cp =>
        obtain ⟨hok, hvs⟩ := (hpe hg s').1 hp
        obtain ⟨hA, hne, hn, hval, hst, hstt, hl, htg, hty⟩ := hfresh hok
        obtain ⟨vs, v1, v2, v3, -⟩ := (vars_read (db := db) t3 (s := { orderCheck s cp with lgr := _ }) hA hne hval
          (by rw [hl, if_pos rfl]) rfl rfl).1.1 ⟨s', hvs⟩
        refine ⟨.char cp _ vs, .char htag (spells_iff.2 hg) ((attrsSay_iff t1 t2).2 rfl) v1,
          ⟨(strict_iff h).1 hst, hstt.1, ?_, ⟨cp, rfl⟩, v2, v3⟩, ?_⟩
        · rintro k rfl
          exact ⟨hne, hval, hstt.2⟩
        · rintro k rfl
          exact hn
    · rintro ⟨i, hs, ⟨f1, f2, f3, -, f5, f6⟩, hab⟩
      cases hs with
      | range ht => rw [htag] at ht; exact absurd ht (by decide)
      | @char cp a vs _ hsp ha hvs =>
        have hg := spells_iff.1 hsp
        obtain ⟨hne, hval, htags⟩ := f3 cp rfl
        have hae := (attrsSay_iff t1 t2).1 ha
        have hok : (s.lgr.addCp db (.seq cp) (optsOf false e.attrs)).2 = .ok () := by
          refine (add_cp_ok_iff db _ _ _).2 ⟨cp, .seq _ hne, (idnaOk_iff h).2 hval, (by intro _ hc; cases hc), hab cp rfl,
            fun _ => ⟨(strict_iff (db := db) h).2 ?_, ?_, ?_⟩⟩
          · subst hae; exact f1
          · subst hae; exact f2
          · subst hae; exact htags
        obtain ⟨hA, -, -, -, -, -, hl, -, -⟩ := hfresh hok
        obtain ⟨s', hp⟩ := (vars_read (db := db) t3 (s := { orderCheck s cp with lgr := _ }) hA hne hval
          (by rw [hl, if_pos rfl]) rfl rfl).1.2 ⟨vs, hvs, f5, f6, by rw [fresh_noVars]; simp⟩
        exact ⟨s', (hpe hg s').2 ⟨hok, hp⟩⟩
  · intro i s' hs hp
    cases hs with
    | range ht => rw [htag] at ht; exact absurd ht (by decide)
    | @char cp a vs _ hsp ha hvs =>
      have hg := spells_iff.1 hsp
      have hae := (attrsSay_iff t1 t2).1 ha
      obtain ⟨hok, hf⟩ := (hpe hg s').1 hp
      obtain ⟨hA, hne, hn, hval, hst, hstt, hl, htg, hty⟩ := hfresh hok
      obtain ⟨hA', c', l', cc', r', at', g', k', tc', ty'⟩ := (vars_read (db := db) t3 (s := { orderCheck s cp with lgr := _ })
        hA hne hval (by rw [hl, if_pos rfl]) rfl rfl).2 vs s' hvs hf
      refine ⟨hA', ?_, ?_, ?_, ?_⟩
      · rintro k rfl
        refine ⟨c', l', rfl, cc', by rw [at', hae]; rfl, r', fun v => ?_⟩
        rw [g', fresh_noVars]
        simp [Item.vars]
      · intro k hk
        have hk : k ≠ cp := hk
        rw [k' k hk]
        dsimp only
        rw [hl, if_neg hk]
      · intro t x
        have : tagSet s'.lgr t = tagSet (s.lgr.addCp db (.seq cp) (optsOf false e.attrs)).1 t := by
          unfold tagSet; rw [tc']
        rw [this, htg, hae]
        simp [Item.attrs, Item.Has]
      · intro t
        rw [ty']
        dsimp only
        rw [hty]
        rfl

theorem range_read {e : Elem} (htag : e.tag = "range") (ht : ElemTidy e) {s : PState} (h : At strict m s.lgr) :
    ((∃ s', parseElem db false s e = (s', .ok ())) ↔
      ∃ i, Says e i ∧ (given db strict m).Fine i ∧ ∀ k, i.Has k → s.lgr.rep.lookup k = none) ∧
    ∀ i s', Says e i → parseElem db false s e = (s', .ok ()) → At strict m s'.lgr ∧ Step i s.lgr s'.lgr := by
  obtain ⟨t1, t2, -⟩ := ht
  have hnc : e.tag ≠ "char" := by rw [htag]; decide
  have hpe : ∀ {f l}, getHex e.attrs "first-cp" = .ok f → getHex e.attrs "last-cp" = .ok l → ∀ s',
      parseElem db false s e = (s', .ok ()) ↔ (s.lgr.addRange db f l (optsOf false e.attrs)).2 = .ok () ∧
        s' = { s with lgr := (s.lgr.addRange db f l (optsOf false e.attrs)).1 } := by
    intro f l hf hl s'
    unfold parseElem
    rw [if_neg hnc, if_pos htag, hf]
    dsimp only
    rw [hl]
    exact guard_ok
  have hval : ∀ x, (Valid db x ∨ s.lgr.raiseInvalid = false) ↔ (given db strict m).valid x := by
    intro x
    unfold given Valid
    rw [h.raises]
    cases strict <;> simp
  have hok : ∀ {f l}, (s.lgr.addRange db f l (optsOf false e.attrs)).2 = .ok () ↔ f ≤ l ∧
      Strict s.lgr (optsOf false e.attrs) ∧ (getList e.attrs "tag").Nodup ∧
      ∀ x, f ≤ x → x ≤ l → s.lgr.rep.lookup [x] = none ∧ (given db strict m).valid x := by
    intro f l
    rw [add_range_ok_iff db _ h.wf]
    have e1 : (optsOf false e.attrs).force = false := rfl
    have e2 : (optsOf false e.attrs).vrep = none := rfl
    rw [e1, e2]
    simp only [Bool.false_eq_true, if_false]
    constructor
    · rintro ⟨a1, -, -, ⟨a2, a3⟩, a4⟩
      exact ⟨a1, a2, a3, fun x x1 x2 => ⟨(a4 x x1 x2).1, (hval x).1 (a4 x x1 x2).2.1⟩⟩
    · rintro ⟨a1, a2, a3, a4⟩
      refine ⟨a1, ?_, ?_, ⟨a2, a3⟩, fun x x1 x2 => ⟨(a4 x x1 x2).1, (hval x).2 (a4 x x1 x2).2, ?_⟩⟩
      · intro _ _ _ _ _ hc; cases hc
      rotate_left
      · intro _ _ _ hc; cases hc
      rintro x x1 x2 ⟨c1, -⟩
      rw [(a4 x x1 x2).1] at c1
      cases c1
  constructor
  · constructor
    · rintro ⟨s', hp⟩
      cases hf : getHex e.attrs "first-cp" with
      | error er =>
        unfold parseElem at hp
        rw [if_neg hnc, if_pos htag, hf] at hp
        cases hp
      | ok f =>
        cases hl : getHex e.attrs "last-cp" with
        | error er =>
          unfold parseElem at hp
          rw [if_neg hnc, if_pos htag, hf] at hp
          dsimp only at hp
          rw [hl] at hp
          cases hp
        | ok l =>
          obtain ⟨h1, -⟩ := (hpe hf hl s').1 hp
          obtain ⟨a1, a2, a3, a4⟩ := hok.1 h1
          refine ⟨.range f l _, .range htag (spellsOne_iff.2 hf) (spellsOne_iff.2 hl) ((attrsSay_iff t1 t2).2 rfl),
            ⟨(strict_iff h).1 a2, a3, ?_, ⟨[f], f, le_refl _, a1, rfl⟩, by simp [Item.vars], by simp [Item.vars]⟩, ?_⟩
          · rintro k ⟨x, x1, x2, rfl⟩
            exact ⟨by simp, by simpa using (a4 x x1 x2).2, .inr rfl⟩
          · rintro k ⟨x, x1, x2, rfl⟩
            exact (a4 x x1 x2).1
    · rintro ⟨i, hs, ⟨f1, f2, f3, ⟨k0, hk0⟩, -, -⟩, hab⟩
      cases hs with
      | char ht => rw [htag] at ht; exact absurd ht (by decide)
      | @range f l a _ hf hl ha =>
        obtain ⟨x0, y1, y2, -⟩ := hk0
        have hae := (attrsSay_iff t1 t2).1 ha
        subst hae
        refine ⟨_, (hpe (spellsOne_iff.1 hf) (spellsOne_iff.1 hl) _).2 ⟨hok.2 ⟨le_trans y1 y2,
          (strict_iff (db := db) h).2 f1, f2, fun x x1 x2 => ⟨hab _ ⟨x, x1, x2, rfl⟩, ?_⟩⟩, rfl⟩⟩
        exact (f3 _ ⟨x, x1, x2, rfl⟩).2.1 x (by simp)
  · intro i s' hs hp
    cases hs with
    | char ht => rw [htag] at ht; exact absurd ht (by decide)
    | @range f l a _ hf hl ha =>
      have hae := (attrsSay_iff t1 t2).1 ha
      obtain ⟨h1, rfl⟩ := (hpe (spellsOne_iff.1 hf) (spellsOne_iff.1 hl) _).1 hp
      obtain ⟨a1, a2, a3, a4⟩ := hok.1 h1
      have hw : WF (s.lgr.addRange db f l (optsOf false e.attrs)).1.rep :=
        (inv_addRangeL (P := fun _ => True) ⟨h.wf, by simp⟩ (by simp) (by simp)).wf
      obtain ⟨-, rs, -, -, hin, hout, -, htg, hrf, hty, hri, hrs⟩ := add_range_exact db _ h.wf f l _ h1
      have := hrs rfl
      subst this
      have hC : ∀ x, C05.Covers [(f, l)] x ↔ f ≤ x ∧ x ≤ l := by
        intro x; simp [C05.Covers]
      refine ⟨⟨hw, by dsimp only; rw [hrf]; exact h.refs, by dsimp only; rw [hri]; exact h.raises⟩, ?_, ?_, ?_, ?_⟩
      · rintro k ⟨x, x1, x2, rfl⟩
        refine ⟨_, hin (f, l) (by simp) x x1 x2, ⟨x, x1, x2, rfl⟩, rfl, ?_, rfl, ?_⟩
        · rw [known_eq a2, hae]; rfl
        · intro v
          rw [fresh_noVars]; simp [Item.vars]
      · intro k hk
        exact hout k (fun x hx hkx => hk ⟨x, ((hC x).1 hx).1, ((hC x).1 hx).2, hkx⟩)
      · intro t x
        dsimp only
        rw [htg, hC, hae]
        constructor
        · rintro (hh | ⟨hh, h2, h3⟩)
          · exact .inl hh
          · exact .inr ⟨hh, [x], ⟨x, h2, h3, rfl⟩, by simp⟩
        · rintro (hh | ⟨hh, _, ⟨y, h2, h3, rfl⟩, hx⟩)
          · exact .inl hh
          · simp only [List.mem_singleton] at hx
            subst hx
            exact .inr ⟨hh, h2, h3⟩
      · intro t
        dsimp only
        rw [hty]
        simp [Item.vars]

theorem elem_read {e : Elem} (htag : e.tag = "char" ∨ e.tag = "range") (ht : ElemTidy e) {s : PState}
    (h : At strict m s.lgr) :
    ((∃ s', parseElem db false s e = (s', .ok ())) ↔
      ∃ i, Says e i ∧ (given db strict m).Fine i ∧ ∀ k, i.Has k → s.lgr.rep.lookup k = none) ∧
    ∀ i s', Says e i → parseElem db false s e = (s', .ok ()) → At strict m s'.lgr ∧ Step i s.lgr s'.lgr := by
  rcases htag with htag | htag
  · exact char_read htag ht h
  · exact range_read htag ht h

/-! ## The section -/

/-- What reading some items amounts to. -/
structure Filled (is : List Item) (g g' : LGR) : Prop where
  new : ∀ i ∈ is, ∀ k, i.Has k → ∃ c, g'.rep.lookup k = some c ∧ Holds i k c
  old : ∀ k, (∀ i ∈ is, ¬ i.Has k) → g'.rep.lookup k = g.rep.lookup k
  tags : ∀ t x, x ∈ tagSet g' t ↔ x ∈ tagSet g t ∨ ∃ i ∈ is, t ∈ i.attrs.tags ∧ ∃ k, i.Has k ∧ x ∈ k
  types : ∀ t, t ∈ g'.types ↔ t ∈ g.types ∨ ∃ i ∈ is, ∃ v ∈ i.vars, v.type = t

theorem elems_read {es : List Elem} (ht : ∀ e ∈ es, ElemTidy e) {s : PState} (h : At strict m s.lgr) :
    ((∃ s', forEach (parseElem db false) s es = (s', .ok ())) ↔
      ∃ is, Means es is ∧ (∀ i ∈ is, (given db strict m).Fine i) ∧ Apart is ∧
        ∀ i ∈ is, ∀ k, i.Has k → s.lgr.rep.lookup k = none) ∧
    ∀ is s', Means es is → forEach (parseElem db false) s es = (s', .ok ()) →
      At strict m s'.lgr ∧ (Apart is → Filled is s.lgr s'.lgr) := by
  induction es generalizing s with
  | nil =>
    refine ⟨⟨fun _ => ⟨[], .nil, by simp, List.Pairwise.nil, by simp⟩, fun _ => ⟨s, rfl⟩⟩, ?_⟩
    intro is s' hm hp
    cases hm
    cases hp
    exact ⟨h, fun _ => ⟨by simp, by simp, by simp, by simp⟩⟩
  | cons e es ih =>
    have hx := ht e (by simp)
    have hxs := fun y hy => ht y (List.mem_cons_of_mem _ hy)
    by_cases htag : e.tag = "char" ∨ e.tag = "range"
    · obtain ⟨hiff, heff⟩ := elem_read (db := db) htag hx h
      have hsays : ∀ {is}, Means (e :: es) is → ∃ i is', is = i :: is' ∧ Says e i ∧ Means es is' := by
        intro is hm
        cases hm with
        | skip h1 h2 _ => exact absurd htag (by simp [h1, h2])
        | item h1 h2 => exact ⟨_, _, rfl, h1, h2⟩
      constructor
      · constructor
        · rintro ⟨s', hp⟩
          obtain ⟨s1, hp1, hp2⟩ := C101.forEach_cons.1 hp
          obtain ⟨i, i1, i2, i3⟩ := hiff.1 ⟨s1, hp1⟩
          obtain ⟨hA, hst⟩ := heff i s1 i1 hp1
          obtain ⟨is, j1, j2, j3, j4⟩ := (ih hxs hA).1.1 ⟨s', hp2⟩
          refine ⟨i :: is, .item i1 j1, ?_, List.Pairwise.cons ?_ j3, ?_⟩
          · intro j hj
            rcases List.mem_cons.1 hj with rfl | hj
            · exact i2
            · exact j2 j hj
          · intro j hj k hk hk'
            obtain ⟨c, hc, -⟩ := hst.new k hk
            rw [j4 j hj k hk'] at hc
            cases hc
          · intro j hj k hk
            rcases List.mem_cons.1 hj with rfl | hj
            · exact i3 k hk
            · by_cases hik : i.Has k
              · exact i3 k hik
              · rw [← hst.old k hik]; exact j4 j hj k hk
        · rintro ⟨is, hm, j2, j3, j4⟩
          obtain ⟨i, is, rfl, i1, j1⟩ := hsays hm
          obtain ⟨s1, hp1⟩ := hiff.2 ⟨i, i1, j2 i (by simp), j4 i (by simp)⟩
          obtain ⟨hA, hst⟩ := heff i s1 i1 hp1
          have j3' := List.pairwise_cons.1 j3
          obtain ⟨s', hp2⟩ := (ih hxs hA).1.2 ⟨is, j1, fun j hj => j2 j (by simp [hj]), j3'.2, by
            intro j hj k hk
            rw [hst.old k (fun hik => j3'.1 j hj k hik hk)]
            exact j4 j (by simp [hj]) k hk⟩
          exact ⟨s', C101.forEach_cons.2 ⟨s1, hp1, hp2⟩⟩
      · intro is s' hm hp
        obtain ⟨i, is, rfl, i1, j1⟩ := hsays hm
        obtain ⟨s1, hp1, hp2⟩ := C101.forEach_cons.1 hp
        obtain ⟨hA, hst⟩ := heff i s1 i1 hp1
        obtain ⟨hA', hfl⟩ := (ih hxs hA).2 is s' j1 hp2
        refine ⟨hA', fun hap => ?_⟩
        have hap' := List.pairwise_cons.1 hap
        have hfl := hfl hap'.2
        refine ⟨?_, ?_, ?_, ?_⟩
        · intro j hj k hk
          rcases List.mem_cons.1 hj with rfl | hj
          · obtain ⟨c, hc, hh⟩ := hst.new k hk
            exact ⟨c, by rw [hfl.old k (fun j' hj' => hap'.1 j' hj' k hk), hc], hh⟩
          · exact hfl.new j hj k hk
        · intro k hk
          rw [hfl.old k (fun j hj => hk j (by simp [hj])), hst.old k (hk i (by simp))]
        · intro t x
          rw [hfl.tags, hst.tags]
          simp only [List.mem_cons, exists_eq_or_imp]
          rw [or_assoc]
        · intro t
          rw [hfl.types, hst.types]
          simp only [List.mem_cons, exists_eq_or_imp]
          rw [or_assoc]
    · rw [not_or] at htag
      have hpe : ∀ s, parseElem db false s e = (s, .ok ()) := by
        intro s
        unfold parseElem
        rw [if_neg htag.1, if_neg htag.2]
      have hskip : ∀ {is}, Means (e :: es) is ↔ Means es is := by
        intro is
        constructor
        · intro hm
          cases hm with
          | skip _ _ hm => exact hm
          | item hs _ =>
            cases hs with
            | char ht => exact absurd ht htag.1
            | range ht => exact absurd ht htag.2
        · exact .skip htag.1 htag.2
      have hf : ∀ s', forEach (parseElem db false) s (e :: es) = (s', .ok ()) ↔
          forEach (parseElem db false) s es = (s', .ok ()) := by
        intro s'
        rw [C101.forEach_cons]
        constructor
        · rintro ⟨s1, h1, h2⟩
          rw [hpe] at h1
          cases h1
          exact h2
        · exact fun h2 => ⟨s, hpe s, h2⟩
      obtain ⟨r1, r2⟩ := ih hxs h
      refine ⟨?_, ?_⟩
      · simp only [hf, hskip]; exact r1
      · simp only [hf, hskip]; exact r2

/-- **C105** A data section is read into a new LGR without exception iff it says what it should: its
code points are written in hexadecimal, its items are fine, and no sequence is in two of them. The
repertoire then has exactly the entries asked for, the classes of tags have exactly the code points
with the tag, and the types are those of the variants. (`_partial`: lists of words in attributes have to
be separated by single spaces.) -/
theorem data_means_partial (db : UniDb) (strict : Bool) (m : RefManager) (cs : Rfc7940.Results) {es : List Elem}
    (ht : ∀ e ∈ es, ElemTidy e) :
    ((parseData db false { lgr := { refs := m, raiseInvalid := strict }, checks := cs } es).2 = .ok () ↔
      ∃ is, Means es is ∧ (∀ i ∈ is, (given db strict m).Fine i) ∧ Apart is) ∧
    ∀ p, parseData db false { lgr := { refs := m, raiseInvalid := strict }, checks := cs } es = (p, .ok ()) →
      ∃ is, Means es is ∧ (∀ k, (p.lgr.rep.lookup k).isSome ↔ ∃ i ∈ is, i.Has k) ∧
        (∀ k c, p.lgr.rep.lookup k = some c → ∃ i ∈ is, Holds i k c) ∧
        (∀ t x, x ∈ tagSet p.lgr t ↔ ∃ i ∈ is, t ∈ i.attrs.tags ∧ ∃ k, i.Has k ∧ x ∈ k) ∧
        (∀ t, t ∈ p.lgr.types ↔ ∃ i ∈ is, ∃ v ∈ i.vars, v.type = t) := by
  have hA : At strict m ({ lgr := { refs := m, raiseInvalid := strict }, checks := cs, prev := [] } : PState).lgr :=
    ⟨wf_empty, rfl, rfl⟩
  have hempty : ∀ k, ({} : Repertoire).lookup k = none := by
    intro k; cases k <;> rfl
  obtain ⟨r1, r2⟩ := elems_read (db := db) ht hA
  have hpd : ∀ {p}, parseData db false { lgr := { refs := m, raiseInvalid := strict }, checks := cs } es = (p, .ok ()) →
      ∃ s', forEach (parseElem db false) { lgr := { refs := m, raiseInvalid := strict }, checks := cs } es = (s', .ok ()) ∧
        p.lgr = s'.lgr := by
    intro p hp
    unfold parseData at hp
    split at hp
    · cases hp
    · rename_i s1 hs1
      injection hp with hp _
      subst hp
      exact ⟨s1, hs1, rfl⟩
  constructor
  · constructor
    · intro hok
      cases hp : parseData db false { lgr := { refs := m, raiseInvalid := strict }, checks := cs } es with
      | mk p o =>
        rw [hp] at hok
        dsimp only at hok
        subst hok
        obtain ⟨s', hs', -⟩ := hpd hp
        obtain ⟨is, i1, i2, i3, -⟩ := r1.1 ⟨s', hs'⟩
        exact ⟨is, i1, i2, i3⟩
    · rintro ⟨is, i1, i2, i3⟩
      obtain ⟨s', hs'⟩ := r1.2 ⟨is, i1, i2, i3, fun _ _ k _ => hempty k⟩
      unfold parseData
      dsimp only
      rw [hs']
  · intro p hp
    obtain ⟨s', hs', hl⟩ := hpd hp
    obtain ⟨is, i1, i2, i3, -⟩ := r1.1 ⟨s', hs'⟩
    obtain ⟨-, hf⟩ := r2 is s' i1 hs'
    have hf := hf i3
    rw [hl]
    have hhas : ∀ k, (s'.lgr.rep.lookup k).isSome → ∃ i ∈ is, i.Has k := by
      intro k hk
      by_contra hn
      rw [hf.old k (fun i hi hh => hn ⟨i, hi, hh⟩)] at hk
      rw [hempty] at hk
      cases hk
    refine ⟨is, i1, fun k => ⟨hhas k, ?_⟩, ?_, ?_, ?_⟩
    · rintro ⟨i, hi, hk⟩
      obtain ⟨c, hc, -⟩ := hf.new i hi k hk
      rw [hc]; rfl
    · intro k c hc
      obtain ⟨i, hi, hk⟩ := hhas k (by rw [hc]; rfl)
      obtain ⟨c', hc', hh⟩ := hf.new i hi k hk
      rw [hc] at hc'
      cases hc'
      exact ⟨i, hi, hh⟩
    · intro t x
      rw [hf.tags]
      simp [tagSet, dget]
    · intro t
      rw [hf.types]
      simp

/-- Elements say one thing. -/
theorem means_unique : ∀ {es : List Elem} {is js : List Item}, (∀ e ∈ es, ElemTidy e) → Means es is → Means es js → is = js := by
  intro es
  induction es with
  | nil => intro is js _ h1 h2; cases h1; cases h2; rfl
  | cons e es ih =>
    intro is js ht h1 h2
    have ht' := fun y hy => ht y (List.mem_cons_of_mem _ hy)
    obtain ⟨t1, t2, t3⟩ := ht e (by simp)
    have hvu : ∀ {xs : List XAttrs} {vs ws : List Variant}, (∀ x ∈ xs, Tidy x "ref") → List.Forall₂ VarSays xs vs →
        List.Forall₂ VarSays xs ws → vs = ws := by
      intro xs
      induction xs with
      | nil => intro vs ws _ a b; cases a; cases b; rfl
      | cons x xs ihx =>
        intro vs ws ht a b
        cases a with
        | cons a1 a2 =>
          cases b with
          | cons b1 b2 =>
            rw [varSays_unique (ht x (by simp)) a1 b1, ihx (fun y hy => ht y (by simp [hy])) a2 b2]
    have hsu : ∀ {i j : Item}, Says e i → Says e j → i = j := by
      intro i j a b
      cases a with
      | char a1 a2 a3 a4 =>
        cases b with
        | char b1 b2 b3 b4 =>
          have e1 := (spells_iff.1 a2).symm.trans (spells_iff.1 b2)
          injection e1 with e1
          rw [e1, (attrsSay_iff t1 t2).1 a3, (attrsSay_iff t1 t2).1 b3, hvu t3 a4 b4]
        | range b1 => rw [a1] at b1; exact absurd b1 (by decide)
      | range a1 a2 a3 a4 =>
        cases b with
        | char b1 => rw [a1] at b1; exact absurd b1 (by decide)
        | range b1 b2 b3 b4 =>
          have e1 := (spellsOne_iff.1 a2).symm.trans (spellsOne_iff.1 b2)
          injection e1 with e1
          have e2 := (spellsOne_iff.1 a3).symm.trans (spellsOne_iff.1 b3)
          injection e2 with e2
          rw [e1, e2, (attrsSay_iff t1 t2).1 a4, (attrsSay_iff t1 t2).1 b4]
    cases h1 with
    | skip a1 a2 a3 =>
      cases h2 with
      | skip b1 b2 b3 => exact ih ht' a3 b3
      | item b1 b2 =>
        cases b1 with
        | char c1 => exact absurd c1 a1
        | range c1 => exact absurd c1 a2
    | item a1 a2 =>
      cases h2 with
      | skip b1 b2 b3 =>
        cases a1 with
        | char c1 => exact absurd c1 b1
        | range c1 => exact absurd c1 b2
      | item b1 b2 => rw [hsu a1 b1, ih ht' a2 b2]

/-- **C105** for a whole document read without force. -/
theorem document_data_partial (R : Reader) (hf : R.force = false) {d : Doc} (ht : ∀ e ∈ d.data, ElemTidy e)
    {cs cs1 : Rfc7940.Results} {g : Loaded} (h : parseDoc R cs d = (cs1, .ok (some g))) :
    ∃ is, Means d.data is ∧ (∀ i ∈ is, (given R.db R.strict (managerOf g.md)).Fine i) ∧ Apart is ∧
      (∀ k, (g.lgr.rep.lookup k).isSome ↔ ∃ i ∈ is, i.Has k) ∧
      (∀ k c, g.lgr.rep.lookup k = some c → ∃ i ∈ is, Holds i k c) ∧
      (∀ t x, x ∈ tagSet g.lgr t ↔ ∃ i ∈ is, t ∈ i.attrs.tags ∧ ∃ k, i.Has k ∧ x ∈ k) ∧
      (∀ t, t ∈ g.lgr.types ↔ ∃ i ∈ is, ∃ v ∈ i.vars, v.type = t) := by
  cases hm : d.metaE with
  | none => exact absurd (by rw [h]) (C104.no_meta_no_lgr R cs d hm g)
  | some ms =>
    unfold parseDoc at h
    rw [hm] at h
    dsimp only at h
    split at h
    · cases h
    · rename_i mst hms
      split at h
      · cases h
      · rename_i p hp
        split at h
        · cases h
        · injection h with _ h
          injection h with h
          injection h with h
          subst h
          rw [hf] at hp
          obtain ⟨r1, r2⟩ := data_means_partial R.db R.strict (managerOf mst.md) mst.checks ht
          obtain ⟨is, i1, i2, i3⟩ := r1.1 (congrArg Prod.snd hp)
          obtain ⟨js, j1, j2, j3, j4, j5⟩ := r2 p hp
          have := means_unique ht j1 i1
          subst this
          exact ⟨js, i1, i2, i3, j2, j3, j4, j5⟩

/-! ## Examples and violations -/

theorem tidy_iff {x : XAttrs} {key : String} : Tidy x key ↔
    join ' ' (splitWs ((dget x key).getD "").toList) = ((dget x key).getD "").toList := by
  constructor
  · rintro ⟨ws, h1, h2⟩
    rw [C102.words_split h1, h2]
  · intro h
    obtain ⟨ws, hw⟩ := C102.words_exist ((dget x key).getD "").toList
    refine ⟨ws, hw, ?_⟩
    rw [C102.words_split hw] at h
    exact h

instance (x : XAttrs) (key : String) : Decidable (Tidy x key) := decidable_of_iff _ tidy_iff.symm

instance (e : Elem) : Decidable (ElemTidy e) := inferInstanceAs (Decidable (_ ∧ _))

example : C104.reader0.force = false ∧ (∀ e ∈ C104.doc0.data, ElemTidy e) ∧
    ∃ cs g, parseDoc C104.reader0 [] C104.doc0 = (cs, .ok (some g)) := by
  refine ⟨rfl, by decide +kernel, ?_⟩
  have h := C104.doc0_read
  rcases hp : parseDoc C104.reader0 [] C104.doc0 with ⟨cs, o⟩
  rw [hp] at h
  match o, h with
  | .ok (some g), _ => exact ⟨cs, g, rfl⟩

/-- Two references, written with two spaces between their identifiers. -/
def spaced : List Elem := [{ tag := "char", attrs := [("cp", "61"), ("ref", "0  1")] }]

/-- The references 0 and 1. -/
def two : RefManager := { refs := [("0", { value := "RFC 1", comment := none }), ("1", { value := "RFC 2", comment := none })] }

/-- **C105** is violated when words are separated by more than one space: the section says what it should,
but is refused, because the reference "" is not defined. -/
theorem two_spaces_wrong :
    (∃ is, Means spaced is ∧ (∀ i ∈ is, (given none true two).Fine i) ∧ Apart is) ∧
    (parseData none false { lgr := { refs := two } } spaced).2 = .error (.referenceNotDefined "") := by
  refine ⟨⟨[.char [0x61] { refs := ["0", "1"] } []], ?_, ?_, List.pairwise_singleton _ _⟩, by decide +kernel⟩
  · refine .item (.char rfl ?_ ⟨rfl, rfl, rfl, ?_, ?_⟩ .nil) .nil
    · exact spells_iff.2 (by decide)
    · exact .cons [] ['0'] [' ', ' ', '1'] [['1']] (by simp) (by simp) (by decide) (by simp; decide)
        (.cons [' ', ' '] ['1'] [] [] (by decide) (by simp) (by decide) (by simp) (.nil [] (by simp)))
    · exact .nil [] (by simp)
  · intro i hi
    rw [List.mem_singleton] at hi
    subst hi
    refine ⟨⟨.inl rfl, ?_, by decide⟩, by decide, ?_, ⟨[0x61], rfl⟩, by simp [Item.vars], by simp [Item.vars]⟩
    · intro r hr
      simp only [Item.attrs, List.mem_cons, List.not_mem_nil, or_false] at hr
      rcases hr with rfl | rfl <;> rfl
    · rintro k rfl
      refine ⟨by simp, ?_, .inr rfl⟩
      intro x _ _ v hv
      cases hv

/-- A tag followed by a space. -/
def trailing : List Elem := [{ tag := "char", attrs := [("cp", "61"), ("tag", "t ")] }]

/-- **C105** is violated by a space at the end: the code point gets the tag "", too. -/
theorem empty_tag_wrong : (match parseData none false { lgr := {} } trailing with
    | (p, .ok ()) => decide (tagSet p.lgr "" = [0x61] ∧ (p.lgr.rep.lookup [0x61]).map (fun c => c.attrs.tags) = some ["t", ""])
    | _ => false) = true := by decide +kernel

end Lgr.Props.C105

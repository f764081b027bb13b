import Verif.Props.SchemaData
import Verif.Props.DocMeta

/-!
# C147: the `<meta>` section
-/

namespace Lgr.Props.C147
open Lgr Xml Text RulesXml Schema MetaXml

variable {x : Lex} {D : String → Pat} {m : MetaXml.Ctx} {force : Bool}

/-- The pattern of `unicode-version`, `resources/lgr.rng` 743-829. -/
def versionP : Pat :=
  .data .token (some (.cat (.plus .digit) (.cat (.cls [('.', '.')]) (.cat (.plus .digit) (.cat (.cls [('.', '.')])
    (.plus .digit)))))) 0

/-- The pattern of the type of a scope, `resources/lgr.rng` 743-829. -/
def scopeTypeP : Pat := .data .NCName none 0

/-! ## What the metadata can hold -/

/-- A scope which the schema accepts. -/
def ScopeOk (x : Lex) (D : String → Pat) (s : Txt) : Prop :=
  ∃ t, s.note = some t ∧ Matches x D scopeTypeP [] [.txt t] ∧ Matches x D scopeValueP [] [.txt (s.value.getD "")]

/-- Metadata which the schema accepts. -/
structure MetaOk (x : Lex) (D : String → Pat) (md : Meta) : Prop where
  date : ∀ s, md.date = some s → Matches x D datePatternP [] [.txt s]
  start : ∀ s, md.validityStart = some s → Matches x D datePatternP [] [.txt s]
  fin : ∀ s, md.validityEnd = some s → Matches x D datePatternP [] [.txt s]
  version : ∀ s, md.unicodeVersion = some s → Matches x D versionP [] [.txt s]
  scopes : ∀ s ∈ md.scopes, ScopeOk x D s
  refs : ∀ p ∈ md.refs, Matches x D idP [] [.txt p.1]

/-! ## Writing -/

theorem read_plain (s : String) : (readText m (.plain s)).getD "" = s := by
  unfold readText
  dsimp only
  by_cases h : s = "" <;> simp [h]

theorem read_opt (o : Option String) : (readText m (plainText o)).getD "" = o.getD "" := by
  cases o with
  | none => rfl
  | some s => exact read_plain s

/-- The elements, as content of `<meta>`. -/
def items (m : MetaXml.Ctx) (l : List MElem) : List Item := (l.map (metaNode m)).map .node

theorem items_append (a b : List MElem) : items m (a ++ b) = items m a ++ items m b := by simp [items]

theorem opt_elem {p : Pat} (t : String) (o : Option String) (h : ∀ s, o = some s → Matches x D p [] [.txt s]) :
    Matches x D (.optional (.elem t p)) [] (items m (optElem t o)) := by
  cases o with
  | none => exact .right .empty
  | some s =>
    refine .left (elem_text (o := readText m (.plain s)) ?_)
    rw [read_plain]
    exact h s rfl

theorem version_matches (o : Option Txt) : Matches x D (.optional (.elem "version" (.group (.optional (.attr "comment" .text))
    .text))) [] (items m (versionElems o)) := by
  cases o with
  | none => exact .right .empty
  | some v =>
    refine .left (elem_text ?_)
    have := group_attrs (opt_text (x := x) (D := D) "comment" v.note)
      (.text (c := [.txt ((readText m (plainText v.value)).getD "")]) (by simp))
    rw [List.append_nil] at this
    exact this

theorem star_elem {p : Pat} (es : List MElem) (h : ∀ e ∈ es, Matches x D p [] [.node (metaNode m e)]) :
    Matches x D (.zeroOrMore p) [] (items m es) := by
  refine star_nodes _ ?_
  intro n hn
  obtain ⟨e, he, rfl⟩ := List.mem_map.1 hn
  exact h e he

theorem scope_matches {s : Txt} (h : ScopeOk x D s) : Matches x D (.elem "scope" (.group (.attr "type" (.data .NCName none 0))
    scopeValueP)) [] [.node (metaNode m { tag := "scope", attrs := optAttr "type" s.note, text := plainText s.value })] := by
  obtain ⟨t, h1, h2, h3⟩ := h
  refine elem_text (o := readText m (plainText s.value)) ?_
  rw [read_opt, h1]
  exact group_attrs (b := []) (.attr h2) h3

theorem desc_matches {md : Meta} {d : List MElem} (h : descElems md = .ok d) :
    Matches x D (.optional (.elem "description" (.group (.optional (.attr "type" .text)) .text))) [] (items m d) := by
  have one : ∀ (o : Option String) (t : XText), Matches x D (.optional (.elem "description" (.group (.optional (.attr "type" .text))
      .text))) [] (items m [{ tag := "description", attrs := optAttr "type" o, text := t }]) := by
    intro o t
    refine .left (elem_text ?_)
    have := group_attrs (opt_text (x := x) (D := D) "type" o) (.text (c := [.txt ((readText m t).getD "")]) (by simp))
    rw [List.append_nil] at this
    exact this
  unfold descElems at h
  split at h
  · cases h; exact .right .empty
  · split at h
    · cases h; exact one _ _
    · split at h
      · simp at h
      · cases h; exact one _ _

theorem refs_matches {md : Meta} (h : ∀ p ∈ md.refs, Matches x D idP [] [.txt p.1]) :
    Matches x D (.optional (.elem "references" (.zeroOrMore (.elem "reference" (.group (.attr "id" idP)
      (.group (.optional (.attr "comment" .text)) .text)))))) [] (items m (refElems md)) := by
  unfold refElems
  split
  · refine .left (elem_nodes (star_nodes _ ?_))
    intro n hn
    obtain ⟨r, hr, rfl⟩ := List.mem_map.1 hn
    obtain ⟨p, hp, rfl⟩ := List.mem_map.1 hr
    refine elem_text ?_
    have hc : ∃ o, refElem p = (("id", p.1) :: optAttr "comment" o, plainText p.2.value) := by
      unfold refElem
      split
      · split
        · exact ⟨some _, rfl⟩
        · exact ⟨none, rfl⟩
      · exact ⟨none, rfl⟩
    obtain ⟨o, ho⟩ := hc
    rw [ho]
    have := group_attrs (.attr (n := "id") (h p hp)) (group_attrs (opt_text (x := x) (D := D) "comment" o)
      (.text (c := [.txt ((readText m (plainText p.2.value)).getD "")]) (by simp)))
    rw [List.append_nil] at this
    exact this
  · exact .right .empty

theorem inter_front {p q : Pat} {X B : List Item} (h1 : Matches x D p [] X) (h2 : Matches x D q [] B) :
    Matches x D (.inter p q) [] (X ++ B) := by
  have := inter_mid (A := []) (B := B) h1 h2
  exact this

theorem meta_matches {md : Meta} (h : MetaOk x D md) {ms : List MElem} (hs : serializeMeta md = .ok ms) :
    Matches x D metaSectionP [] [.node (.mk "meta" [] none (ms.map (metaNode m)))] := by
  unfold serializeMeta at hs
  split at hs
  · simp at hs
  · split at hs
    · simp at hs
    · rename_i d hd
      split at hs
      · cases hs
        refine elem_nodes ?_
        show Matches x D _ [] (items m _)
        have hR := refs_matches (m := m) h.refs
        have hE := desc_matches (x := x) (D := D) (m := m) hd
        have hU := opt_elem (x := x) (D := D) (m := m) (p := versionP) "unicode-version" md.unicodeVersion h.version
        have hF := opt_elem (x := x) (D := D) (m := m) (p := datePatternP) "validity-end" md.validityEnd h.fin
        have hS := opt_elem (x := x) (D := D) (m := m) (p := datePatternP) "validity-start" md.validityStart h.start
        have hD := opt_elem (x := x) (D := D) (m := m) (p := datePatternP) "date" md.date h.date
        have hV := version_matches (x := x) (D := D) (m := m) md.version
        have hL := star_elem (x := x) (D := D) (m := m) (p := .elem "language" languageTagP)
          (md.languages.map (fun l => { tag := "language", text := .plain l })) (by
            intro e he
            obtain ⟨l, -, rfl⟩ := List.mem_map.1 he
            exact elem_text (.data trivial (by rintro r ⟨⟩) (Nat.zero_le _)))
        have hC := star_elem (x := x) (D := D) (m := m) (p := .elem "scope" (.group (.attr "type" (.data .NCName none 0)) scopeValueP))
          (md.scopes.map (fun s => { tag := "scope", attrs := optAttr "type" s.note, text := plainText s.value })) (by
            intro e he
            obtain ⟨s, hs, rfl⟩ := List.mem_map.1 he
            exact scope_matches (h.scopes s hs))
        have h1 := inter_front hE hR
        have h2 := inter_front hU h1
        have h3 := inter_front hF h2
        have h4 := inter_front hS h3
        have h5 := inter_mid (A := items m (optElem "validity-start" md.validityStart) ++
          items m (optElem "validity-end" md.validityEnd) ++ items m (optElem "unicode-version" md.unicodeVersion))
          (B := items m d ++ items m (refElems md)) hC (by simpa only [List.append_assoc] using h4)
        have h6 := inter_mid (A := items m (optElem "validity-start" md.validityStart) ++
          items m (optElem "validity-end" md.validityEnd) ++ items m (optElem "unicode-version" md.unicodeVersion))
          (B := items m (md.scopes.map (fun s => { tag := "scope", attrs := optAttr "type" s.note, text := plainText s.value })) ++
            (items m d ++ items m (refElems md))) hL (by simpa only [List.append_assoc] using h5)
        have h7 := inter_front hD h6
        have h8 := inter_front hV h7
        unfold headElems
        simp only [items_append, List.append_assoc] at h8 ⊢
        exact h8
      · simp at hs

/-! ## Reading -/

theorem data_inv {ty : Ty} {re : Option Schema.Re} {k : Nat} {a : XAttrs} {c : List Item}
    (h : Matches x D (.data ty re k) a c) :
    ∃ s, a = [] ∧ c = [.txt s] ∧ Matches x D (.data ty re k) [] [.txt s] := by
  cases h with
  | data h1 h2 h3 => exact ⟨_, rfl, rfl, .data h1 h2 h3⟩

theorem text_elem {ty : Ty} {re : Option Schema.Re} {k : Nat} {n : Node} {c : List Item} (hc : c ∈ contents n)
    (h : Matches x D (.data ty re k) n.attrs c) : Matches x D (.data ty re k) [] [.txt (n.text.getD "")] := by
  obtain ⟨s, -, rfl, h'⟩ := data_inv h
  rw [contents_text_inv hc]
  exact h'

theorem scope_inv {n : Node} {c : List Item} (hc : c ∈ contents n)
    (h : Matches x D (.group (.attr "type" scopeTypeP) scopeValueP) n.attrs c) :
    ∃ t, dget n.attrs "type" = some t ∧ Matches x D scopeTypeP [] [.txt t] ∧
      Matches x D scopeValueP [] [.txt (n.text.getD "")] := by
  generalize ha : n.attrs = a at h
  cases h with
  | group h1 h2 hp =>
    cases h1 with
    | attr h1 =>
      obtain ⟨s, rfl, rfl, h2⟩ := data_inv h2
      have hp := List.perm_singleton.1 hp
      subst hp
      refine ⟨_, by simp [dget], h1, ?_⟩
      rw [contents_text_inv hc]
      exact h2

/-- An element of `<meta>` in a valid document. -/
structure MElemIn (x : Lex) (D : String → Pat) (m : MetaXml.Ctx) (e : MElem) : Prop where
  date : e.tag = "date" ∨ e.tag = "validity-start" ∨ e.tag = "validity-end" →
    Matches x D datePatternP [] [.txt ((readText m e.text).getD "")]
  version : e.tag = "unicode-version" → Matches x D versionP [] [.txt ((readText m e.text).getD "")]
  scope : e.tag = "scope" → ScopeOk x D ⟨readText m e.text, dget e.attrs "type"⟩
  refs : e.tag = "references" → ∀ r ∈ e.refs, ∃ i, dget r.1 "id" = some i ∧ Matches x D idP [] [.txt i]

theorem melem_in {e : MElem} {p : Pat} {c : List Item} {a : XAttrs} (hp : metaSectionP = .elem "meta" p)
    (h : Matches x D p a c) (he : .node (metaNode m e) ∈ c) : MElemIn x D m e := by
  have hd : direct p = true := by
    cases hp; rfl
  obtain ⟨q, hq, d, hd, hm⟩ := nodes_inv h hd _ he
  have hl : elemsOf p = [("version", .group (.optional (.attr "comment" .text)) .text), ("date", datePatternP),
      ("language", languageTagP), ("scope", .group (.attr "type" scopeTypeP) scopeValueP), ("validity-start", datePatternP),
      ("validity-end", datePatternP), ("unicode-version", versionP),
      ("description", .group (.optional (.attr "type" .text)) .text),
      ("references", .zeroOrMore (.elem "reference" (.group (.attr "id" idP) (.group (.optional (.attr "comment" .text)) .text))))] := by
    cases hp; rfl
  rw [hl] at hq
  have ht : (metaNode m e).tag = e.tag := rfl
  have htx : (metaNode m e).text = readText m e.text := rfl
  have hat : (metaNode m e).attrs = e.attrs := rfl
  rw [ht] at hq
  simp only [List.mem_cons, List.not_mem_nil, or_false, Prod.mk.injEq] at hq
  constructor
  · intro htag
    have : q = datePatternP := by
      rcases htag with htag | htag | htag <;> rw [htag] at hq <;> simp at hq <;> exact hq
    subst this
    rw [← htx]
    exact text_elem hd hm
  · intro htag
    rw [htag] at hq
    simp at hq
    subst hq
    rw [← htx]
    exact text_elem hd hm
  · intro htag
    rw [htag] at hq
    simp at hq
    subst hq
    obtain ⟨t, h1, h2, h3⟩ := scope_inv hd hm
    exact ⟨t, h1, h2, h3⟩
  · intro htag r hr
    rw [htag] at hq
    simp at hq
    subst hq
    have hch : (metaNode m e).children = e.refs.map (refNode m) := rfl
    have hn : Item.node (refNode m r) ∈ d := by
      have hmem : refNode m r ∈ (metaNode m e).children := by rw [hch]; exact List.mem_map_of_mem hr
      unfold contents at hd
      dsimp only at hd
      split at hd
      · rename_i hnil; rw [hnil] at hmem; simp at hmem
      · split at hd
        · simp only [List.mem_singleton] at hd
          subst hd
          exact List.mem_map_of_mem hmem
        · simp only [List.mem_singleton] at hd
          subst hd
          exact List.mem_cons_of_mem _ (List.mem_map_of_mem hmem)
    obtain ⟨q, hq, d', hd', hm'⟩ := nodes_inv hm rfl _ hn
    simp only [Pat.zeroOrMore, elemsOf, List.append_nil, List.mem_singleton, Prod.mk.injEq] at hq
    obtain ⟨-, rfl⟩ := hq
    have hattr : (refNode m r).attrs = r.1 := rfl
    rw [hattr] at hm'
    obtain ⟨i, hi⟩ := Option.isSome_iff_exists.1 (required_inv hm' "id" (by simp [required]))
    obtain ⟨q, hq, hmi⟩ := attr_in hm' rfl hi
    simp [attrsOf, Pat.optional] at hq
    subst hq
    exact ⟨i, hi, hmi⟩

/-! ## The state of the parser -/

theorem forEach_inv {σ α : Type} {f : σ → α → σ × Except Err Unit} {P : σ → Prop} : ∀ (l : List α) {s s' : σ},
    (∀ a ∈ l, ∀ s s', P s → f s a = (s', .ok ()) → P s') → P s → forEach f s l = (s', .ok ()) → P s'
  | [], s, s', _, h, hf => by
    simp only [forEach, Prod.mk.injEq] at hf
    rw [← hf.1]; exact h
  | a :: l, s, s', hs, h, hf => by
    simp only [forEach] at hf
    cases hp : f s a with
    | mk s1 o =>
      rw [hp] at hf
      cases o with
      | error e => simp at hf
      | ok u =>
        exact forEach_inv l (fun b hb => hs b (List.mem_cons_of_mem _ hb)) (hs a (by simp) s s1 h hp) hf

theorem dset_key {β : Type} {P : String → Prop} {d : List (String × β)} {k : String} {v : β} (h : ∀ p ∈ d, P p.1) (hk : P k) :
    ∀ p ∈ dset d k v, P p.1 := by
  induction d with
  | nil => simpa [dset] using hk
  | cons q d ih =>
    obtain ⟨a, b⟩ := q
    unfold dset
    split
    · intro p hp
      rcases List.mem_cons.1 hp with rfl | hp
      · rename_i hkk; first | exact hk | (rw [← hkk]; exact hk) | (rw [hkk]; exact hk)
      · exact h p (List.mem_cons_of_mem _ hp)
    · intro p hp
      rcases List.mem_cons.1 hp with rfl | hp
      · exact h _ (by simp)
      · exact ih (fun p hp => h p (List.mem_cons_of_mem _ hp)) p hp

theorem ok_ref {s s' : MState} {r : XAttrs × XText} (h : MetaOk x D s.md)
    (hr : ∃ i, dget r.1 "id" = some i ∧ Matches x D idP [] [.txt i]) (hf : parseRef m s r = (s', .ok ())) :
    MetaOk x D s'.md := by
  obtain ⟨i, hi, hm⟩ := hr
  unfold parseRef addReference at hf
  rw [hi] at hf
  dsimp only at hf
  split at hf
  · simp at hf
  · split at hf
    · simp at hf
    · simp only [Prod.mk.injEq, and_true] at hf
      rw [← hf]
      exact ⟨h.date, h.start, h.fin, h.version, h.scopes,
        dset_key (P := fun i => Matches x D idP [] [.txt i]) h.refs hm⟩

theorem ok_date {s s' : MState} {t : String} {o : Option String} (h : MetaOk x D s.md)
    (hd : Matches x D datePatternP [] [.txt (o.getD "")]) (hf : parseDate m force s t o = (s', .ok ())) :
    MetaOk x D s'.md := by
  unfold parseDate at hf
  split at hf
  · simp at hf
  · rename_i d
    unfold setDate at hf
    cases hdt : date m d force with
    | error e => rw [hdt] at hf; simp at hf
    | ok r =>
      rw [hdt] at hf
      have := C104.date_same hdt
      subst this
      dsimp only at hf
      split at hf
      · simp only [Prod.mk.injEq, and_true] at hf
        rw [← hf]
        exact ⟨by rintro s ⟨⟩; exact hd, h.start, h.fin, h.version, h.scopes, h.refs⟩
      · split at hf
        · simp only [Prod.mk.injEq, and_true] at hf
          rw [← hf]
          exact ⟨h.date, by rintro s ⟨⟩; exact hd, h.fin, h.version, h.scopes, h.refs⟩
        · simp only [Prod.mk.injEq, and_true] at hf
          rw [← hf]
          exact ⟨h.date, h.start, by rintro s ⟨⟩; exact hd, h.version, h.scopes, h.refs⟩

theorem set_version {md md' : Meta} {t : String} {b : Bool} {u : Unit} (h : setUnicodeVersion m md t force = (md', b, .ok u)) :
    md' = { md with unicodeVersion := some t } := by
  unfold setUnicodeVersion at h
  split at h
  · split at h
    · simp at h
    · simp only [Prod.mk.injEq] at h; exact h.1.symm
  · simp only [Prod.mk.injEq] at h; exact h.1.symm

theorem ok_melem {s s' : MState} {e : MElem} (h : MetaOk x D s.md) (he : MElemIn x D m e)
    (hf : parseMetaElem m force s e = (s', .ok ())) : MetaOk x D s'.md := by
  unfold parseMetaElem at hf
  dsimp only at hf
  split at hf
  · rename_i ht
    exact ok_date h (he.date ht) hf
  split at hf
  · rename_i ht
    have hv := he.version ht
    split at hf
    · simp at hf
    · rename_i t hr
      rw [hr] at hv
      cases hu : setUnicodeVersion m s.md t force with
      | mk md r =>
        obtain ⟨b, o⟩ := r
        rw [hu] at hf
        dsimp only at hf
        cases o with
        | error e => simp at hf
        | ok u =>
          have := set_version hu
          subst this
          have hok : MetaOk x D { s.md with unicodeVersion := some t } :=
            ⟨h.date, h.start, h.fin, by rintro s ⟨⟩; exact hv, h.scopes, h.refs⟩
          simp only [Prod.mk.injEq, and_true] at hf
          rw [← hf]
          cases b <;> exact hok
  split at hf
  · simp only [Prod.mk.injEq, and_true] at hf
    rw [← hf]
    exact ⟨h.date, h.start, h.fin, h.version, h.scopes, h.refs⟩
  split at hf
  · split at hf
    · simp at hf
    · rename_i l _
      have hmd : ∀ b, (s.note "metadata_language" b).md = s.md := fun _ => rfl
      unfold parseLanguage at hf
      dsimp only at hf
      split at hf
      · simp only [Prod.mk.injEq, and_true] at hf
        rw [← hf]
        split
        · exact ⟨h.date, h.start, h.fin, h.version, h.scopes, h.refs⟩
        · split <;> exact ⟨h.date, h.start, h.fin, h.version, h.scopes, h.refs⟩
        · exact ⟨h.date, h.start, h.fin, h.version, h.scopes, h.refs⟩
      · simp at hf
  split at hf
  · rename_i ht
    simp only [Prod.mk.injEq, and_true] at hf
    rw [← hf]
    refine ⟨h.date, h.start, h.fin, h.version, ?_, h.refs⟩
    intro sc hsc
    rcases List.mem_append.1 hsc with hsc | hsc
    · exact h.scopes sc hsc
    · simp only [List.mem_singleton] at hsc
      rw [hsc]
      exact he.scope ht
  split at hf
  · split at hf
    · simp at hf
    · simp only [Prod.mk.injEq, and_true] at hf
      rw [← hf]
      exact ⟨h.date, h.start, h.fin, h.version, h.scopes, h.refs⟩
  split at hf
  · rename_i ht
    exact forEach_inv (P := fun s : MState => MetaOk x D s.md) e.refs (fun r hr s s' h hf => ok_ref h (he.refs ht r hr) hf) h hf
  · simp only [Prod.mk.injEq, and_true] at hf
    rw [← hf]
    exact h

/-- The Unicode version which is written when none is given. -/
theorem default_version : Matches x D versionP [] [.txt "6.3.0"] := by
  refine .data trivial ?_ (Nat.zero_le _)
  rintro r ⟨⟩
  have hc : collapse "6.3.0" = ['6', '.', '3', '.', '0'] := by decide
  rw [hc]
  have dig : ∀ c : Char, '0' ≤ c → c ≤ '9' → (Schema.Re.plus .digit).Is x [c] := fun c h1 h2 =>
    ⟨[[c]], by simp, by simp, by
      intro w hw
      simp only [List.mem_singleton] at hw
      subst hw
      exact ⟨c, rfl, x.ascii c h1 h2⟩⟩
  have dot : (Schema.Re.cls [('.', '.')]).Is x ['.'] := ⟨'.', rfl, ('.', '.'), by simp, Char.le_refl _, Char.le_refl _⟩
  exact ⟨['6'], ['.', '3', '.', '0'], rfl, dig _ (by decide) (by decide), ['.'], ['3', '.', '0'], rfl, dot,
    ['3'], ['.', '0'], rfl, dig _ (by decide) (by decide), ['.'], ['0'], rfl, dot, dig _ (by decide) (by decide)⟩

theorem ok_meta {cs : Rfc7940.Results} {es : List MElem} (h : ∀ e ∈ es, MElemIn x D m e) {s' : MState}
    (hf : parseMeta m force cs es = (s', .ok ())) : MetaOk x D s'.md := by
  unfold parseMeta at hf
  cases hp : forEach (parseMetaElem m force) { checks := cs } es with
  | mk s1 o =>
    rw [hp] at hf
    cases o with
    | error e => simp at hf
    | ok u =>
      simp only [Prod.mk.injEq, and_true] at hf
      rw [← hf]
      show MetaOk x D s1.md
      refine forEach_inv (P := fun s : MState => MetaOk x D s.md) es (fun e he s s' h1 (hf : parseMetaElem m force s e = _) =>
        ok_melem h1 (h e he) hf) ?_ hp
      refine ⟨by simp, by simp, by simp, ?_, by simp, by simp⟩
      rintro s ⟨⟩
      exact default_version

end Lgr.Props.C147

import Verif.Props.SchemaMeta
import Verif.Props.DocXmlWrong
import Mathlib.Data.List.Perm.Subperm

/-!
# C147: what is written for a document which has been read is valid
-/

namespace Lgr.Props.C147
open Lgr Xml Text RulesXml Schema MetaXml DocXml

variable {x : Lex} {D : String → Pat}

/-! ## Patterns of one element -/

/-- A pattern which is matched by exactly one element. -/
inductive One (D : String → Pat) : Pat → Prop where
  | elem (t : String) (p : Pat) : One D (.elem t p)
  | choice {p q : Pat} : One D p → One D q → One D (.choice p q)
  | ref {n : String} : One D (D n) → One D (.ref n)

theorem one_node {p : Pat} {a : XAttrs} {c : List Item} (h : Matches x D p a c) (ho : One D p) :
    a = [] ∧ ∃ n, c = [.node n] := by
  induction h with
  | elem _ _ _ => exact ⟨rfl, _, rfl⟩
  | left _ ih => cases ho with | choice h1 h2 => exact ih h1
  | right _ ih => cases ho with | choice h1 h2 => exact ih h2
  | ref _ ih => cases ho with | ref h1 => exact ih h1
  | _ => cases ho

theorem plus_inv {p q : Pat} {a : XAttrs} {c : List Item} (h : Matches x D p a c) (hp : p = .oneOrMore q) (ho : One D q) :
    c ≠ [] ∧ ∀ i ∈ c, ∃ n, i = .node n ∧ Matches x D q [] [.node n] := by
  induction h with
  | one h _ =>
    cases hp
    obtain ⟨rfl, n, rfl⟩ := one_node h ho
    refine ⟨by simp, ?_⟩
    intro i hi
    simp only [List.mem_singleton] at hi
    exact ⟨n, hi, h⟩
  | more h _ _ _ ih =>
    cases hp
    obtain ⟨rfl, n, rfl⟩ := one_node h ho
    refine ⟨by simp, ?_⟩
    intro i hi
    rcases List.mem_append.1 hi with hi | hi
    · simp only [List.mem_singleton] at hi
      exact ⟨n, hi, h⟩
    · exact (ih rfl).2 i hi
  | _ => cases hp

theorem star_inv {q : Pat} {a : XAttrs} {c : List Item} (h : Matches x D (.zeroOrMore q) a c) (ho : One D q) :
    ∀ i ∈ c, ∃ n, i = .node n ∧ Matches x D q [] [.node n] := by
  cases h with
  | left h => exact (plus_inv h rfl ho).2
  | right h => cases h; simp

theorem elem_inv {p : Pat} {t : String} {n : Node} (h : Matches x D (.elem t p) [] [.node n]) :
    ∃ c ∈ contents n, Matches x D p n.attrs c := by
  obtain ⟨q, hq, c, hc, hm⟩ := nodes_inv h rfl n (by simp)
  simp only [elemsOf, List.mem_singleton, Prod.mk.injEq] at hq
  obtain ⟨-, rfl⟩ := hq
  exact ⟨c, hc, hm⟩

theorem contents_children {n : Node} {c : List Item} (h : c ∈ contents n) : ∀ k ∈ n.children, .node k ∈ c := by
  intro k hk
  unfold contents at h
  dsimp only at h
  split at h
  · rename_i hnil; rw [hnil] at hk; simp at hk
  · split at h
    · simp only [List.mem_singleton] at h
      subst h
      exact List.mem_map_of_mem hk
    · simp only [List.mem_singleton] at h
      subst h
      exact List.mem_cons_of_mem _ (List.mem_map_of_mem hk)

/-! ## Attributes of type `ID` -/

/-- No attribute of the pattern is `name`, at any depth. -/
def noName : Pat → Bool
  | .empty | .text | .data _ _ _ | .value _ => true
  | .attr n _ => n != "name"
  | .elem _ p => noName p
  | .group p q | .inter p q | .choice p q => noName p && noName q
  | .oneOrMore p => noName p
  | .ref _ => false

theorem idsAll_nil : ∀ {ns : List Node}, (∀ n ∈ ns, ids n = []) → idsAll ns = []
  | [], _ => rfl
  | n :: ns, h => by
    simp only [idsAll]
    rw [h n (by simp), idsAll_nil (fun k hk => h k (List.mem_cons_of_mem _ hk))]
    rfl

theorem idsAll_flat : ∀ ns : List Node, idsAll ns = ns.flatMap ids
  | [] => rfl
  | n :: ns => by simp [idsAll, idsAll_flat ns]

theorem ids_eq (n : Node) : ids n = (dget n.attrs "name").toList.map collapse ++ idsAll n.children := by
  obtain ⟨t, a, o, cs⟩ := n
  rfl

theorem dget_none {a : XAttrs} (h : ∀ p ∈ a, p.1 ≠ "name") : dget a "name" = none := by
  cases hd : dget a "name" with
  | none => rfl
  | some v => exact absurd rfl (h _ (mem_of_dget hd))

theorem no_ids {p : Pat} {a : XAttrs} {c : List Item} (h : Matches x D p a c) (hn : noName p = true) :
    (∀ q ∈ a, q.1 ≠ "name") ∧ ∀ n, .node n ∈ c → ids n = [] := by
  induction h with
  | empty => simp
  | text hc =>
    refine ⟨by simp, ?_⟩
    intro n hn
    obtain ⟨s, hs⟩ := hc _ hn
    cases hs
  | data => simp
  | value => simp
  | attr _ _ =>
    refine ⟨?_, by simp⟩
    intro q hq
    simp only [List.mem_singleton] at hq
    subst hq
    simpa [noName] using hn
  | @elem n p c hc _ ih =>
    refine ⟨by simp, ?_⟩
    intro k hk
    simp only [List.mem_singleton, Item.node.injEq] at hk
    subst hk
    have ih := ih hn
    rw [ids_eq, dget_none ih.1, idsAll_nil (fun j hj => ih.2 j (contents_children hc j hj))]
    rfl
  | group _ _ hp ih1 ih2 =>
    simp only [noName, Bool.and_eq_true] at hn
    refine ⟨?_, ?_⟩
    · intro q hq
      rcases List.mem_append.1 (hp.mem_iff.1 hq) with hq | hq
      · exact (ih1 hn.1).1 q hq
      · exact (ih2 hn.2).1 q hq
    · intro n hc
      rcases List.mem_append.1 hc with hc | hc
      · exact (ih1 hn.1).2 n hc
      · exact (ih2 hn.2).2 n hc
  | inter _ _ hp hs ih1 ih2 =>
    simp only [noName, Bool.and_eq_true] at hn
    refine ⟨?_, ?_⟩
    · intro q hq
      rcases List.mem_append.1 (hp.mem_iff.1 hq) with hq | hq
      · exact (ih1 hn.1).1 q hq
      · exact (ih2 hn.2).1 q hq
    · intro n hc
      rcases (mem_shuffle hs _).1 hc with hc | hc
      · exact (ih1 hn.1).2 n hc
      · exact (ih2 hn.2).2 n hc
  | left _ ih =>
    simp only [noName, Bool.and_eq_true] at hn
    exact ih hn.1
  | right _ ih =>
    simp only [noName, Bool.and_eq_true] at hn
    exact ih hn.2
  | one _ ih => exact ih hn
  | more _ _ hp ih1 ih2 =>
    refine ⟨?_, ?_⟩
    · intro q hq
      rcases List.mem_append.1 (hp.mem_iff.1 hq) with hq | hq
      · exact (ih1 hn).1 q hq
      · exact (ih2 hn).1 q hq
    · intro n hc
      rcases List.mem_append.1 hc with hc | hc
      · exact (ih1 hn).2 n hc
      · exact (ih2 hn).2 n hc
  | ref _ _ => simp [noName] at hn

/-! ## The rules -/

/-- The pattern of one child of `<rules>`, `resources/lgr.rng` 840-854. -/
def ruleItemP : Pat := .choice classOrSetOperatorDeclarationP (.choice ruleDeclarationTopP actionDeclarationP)

theorem one_ruleItem : One defs ruleItemP :=
  .choice (.choice (.elem _ _) (.ref (.choice (.ref (.elem _ _)) (.choice (.ref (.elem _ _)) (.choice (.ref (.elem _ _))
    (.choice (.ref (.elem _ _)) (.ref (.elem _ _)))))))) (.choice (.elem _ _) (.elem _ _))

theorem one_data : One D (.choice charP rangeP) := .choice (.elem _ _) (.elem _ _)

theorem item_perm {P : Parser} {s s' : Rules × RState} {n : Node} (h : parseItem P s n = (s', .ok ())) :
    (serializeRules s'.1).Subperm (n :: serializeRules s.1) := by
  unfold parseItem at h
  split at h
  · split at h
    · simp at h
    · split at h
      · simp at h
      · simp only [Prod.mk.injEq, and_true] at h
        rw [← h]
        refine List.Perm.subperm ?_
        simp only [serializeRules, List.append_assoc, List.singleton_append]
        exact List.perm_middle
  split at h
  · split at h
    · simp at h
    · split at h
      · simp at h
      · simp only [Prod.mk.injEq, and_true] at h
        rw [← h]
        refine List.Perm.subperm ?_
        simp only [serializeRules]
        rw [← List.append_assoc, List.append_assoc _ [n]]
        exact List.perm_middle
  split at h
  · split at h
    · simp at h
    · simp only [Prod.mk.injEq, and_true] at h
      rw [← h]
      refine List.Perm.subperm ?_
      simp only [serializeRules]
      rw [← List.append_assoc]
      exact List.perm_append_comm
  · simp only [Prod.mk.injEq, and_true] at h
    rw [← h]
    exact (List.sublist_cons_self _ _).subperm

theorem rules_perm {P : Parser} : ∀ (ns : List Node) {s s' : Rules × RState}, parseRules P s ns = (s', .ok ()) →
    (serializeRules s'.1).Subperm (ns ++ serializeRules s.1)
  | [], s, s', h => by
    simp only [parseRules, forEach, Prod.mk.injEq] at h
    rw [← h.1]
    exact List.Subperm.refl _
  | n :: ns, s, s', h => by
    simp only [parseRules, forEach] at h
    cases hp : parseItem P s n with
    | mk s1 o =>
      rw [hp] at h
      cases o with
      | error e => simp at h
      | ok u =>
        have h1 := rules_perm ns h
        refine h1.trans ?_
        refine ((List.subperm_append_left ns).2 (item_perm hp)).trans ?_
        exact List.perm_middle.subperm

/-! ## The identifiers of the references -/

theorem ids_ok {md : Meta} (h : MetaOk x D md) : IdsOk x D (managerOf md) := by
  intro i hi
  rw [dget_isSome] at hi
  obtain ⟨p, hp, rfl⟩ := List.mem_map.1 hi
  obtain ⟨q, hq, rfl⟩ := List.mem_map.1 hp
  exact h.refs q hq

/-! ## The document -/

theorem valid_of {m : MetaXml.Ctx} {ms : List MElem} {es : List Elem} {ns : List Node}
    (h1 : Matches x defs metaSectionP [] [.node (.mk "meta" [] none (ms.map (metaNode m)))])
    (h2 : Matches x defs dataSectionP [] [.node (.mk "data" [] none (es.map elemNode))])
    (h3 : ∀ n ∈ ns, Matches x defs ruleItemP [] [.node n]) (h4 : (idsAll ns).Nodup) :
    Valid x m { metaE := some ms, data := es, rules := some ns } := by
  constructor
  · refine elem_nodes ?_
    exact group_content (.left h1) (group_content h2 (.left (elem_nodes (star_nodes _ h3))))
  · have e1 := (no_ids h1 (by rfl)).2 (.mk "meta" [] none (ms.map (metaNode m))) (by simp)
    have e2 := (no_ids h2 (by rfl)).2 (.mk "data" [] none (es.map elemNode)) (by simp)
    have : ids (docNode m { metaE := some ms, data := es, rules := some ns }) = idsAll ns := by
      rw [ids_eq]
      show [] ++ idsAll [_, _, _] = _
      simp only [idsAll, e1, e2, ids_eq (.mk "rules" [] none ns)]
      simp [dget, Node.attrs, Node.children]
    rw [this]
    exact h4

structure Parts (x : Lex) (m : MetaXml.Ctx) (d : Doc) (ms : List MElem) : Prop where
  elems : ∀ e ∈ ms, MElemIn x defs m e
  data : ∀ e ∈ d.data, ElemIn x defs e
  some : d.data ≠ []
  rules : ∀ n ∈ d.rules.getD [], Matches x defs ruleItemP [] [.node n]
  unique : (idsAll (d.rules.getD [])).Nodup

theorem parts_of {m : MetaXml.Ctx} {d : Doc} {ms : List MElem} (h : Valid x m d) (hm : d.metaE = some ms) : Parts x m d ms := by
  obtain ⟨c, hc, hs⟩ := elem_inv h.shape
  have hin := contents_children hc
  have hch : (docNode m d).children = sections m d := rfl
  rw [hch] at hin
  have sec : ∀ n ∈ sections m d, ∃ q, (n.tag, q) ∈ [("meta", _), ("data", _), ("rules", _)] ∧
      ∃ e ∈ contents n, Matches x defs q n.attrs e := fun n hn => nodes_inv hs rfl n (hin n hn)
  have hmeta : Node.mk "meta" [] none (ms.map (metaNode m)) ∈ sections m d := by simp [sections, hm]
  have hdata : Node.mk "data" [] none (d.data.map elemNode) ∈ sections m d := by simp [sections]
  obtain ⟨q, hq, e, he, hmm⟩ := sec _ hdata
  simp [Node.tag] at hq
  subst hq
  obtain ⟨hne, hd⟩ := plus_inv hmm rfl one_data
  refine ⟨?_, ?_, ?_, ?_, ?_⟩
  · intro e1 h1
    obtain ⟨q, hq, e, he, hmm⟩ := sec _ hmeta
    simp [Node.tag] at hq
    subst hq
    exact melem_in rfl hmm (contents_children he _ (List.mem_map_of_mem h1))
  · intro e1 h1
    obtain ⟨n, hn, h2⟩ := hd _ (contents_children he _ (List.mem_map_of_mem h1))
    cases hn
    exact elem_in h2
  · intro h0
    rw [h0] at he
    have hb : blank "" = true := by decide
    simp [contents, Node.text, Node.children, hb] at he
    rcases he with rfl | rfl
    · exact hne rfl
    · obtain ⟨n, hn, -⟩ := hd (.txt "") (by simp)
      cases hn
  · cases hr : d.rules with
    | none => simp
    | some ns =>
      have hrules : Node.mk "rules" [] none ns ∈ sections m d := by simp [sections, hr]
      obtain ⟨q, hq, e, he, hmm⟩ := sec _ hrules
      simp [Node.tag] at hq
      subst hq
      intro n hn
      obtain ⟨k, hk, h2⟩ := star_inv hmm one_ruleItem _ (contents_children he n hn)
      cases hk
      exact h2
  · cases hr : d.rules with
    | none => simp [idsAll]
    | some ns =>
      have hu := h.unique
      rw [ids_eq] at hu
      have hrules : Node.mk "rules" [] none ns ∈ sections m d := by simp [sections, hr]
      have hu := (List.nodup_append.1 hu).2.1
      rw [hch, idsAll_flat] at hu
      have := (List.nodup_flatMap.1 hu).1 _ hrules
      rw [ids_eq] at this
      exact (List.nodup_append.1 this).2.1

/-- What is written for an LGR which has been read from a valid document is valid, unless `force` has left no code point. -/
theorem written_valid_partial (R : Reader) (cs : Rfc7940.Results) (d : Doc) {c' : Rfc7940.Results} {g : Loaded} {d' : Doc}
    (hv : Valid x R.x d) (hp : parseDoc R cs d = (c', .ok (some g))) (hf : R.force = false ∨ g.lgr.rep.iter ≠ [])
    (hs : serializeDoc g = .ok d') : Valid x R.x d' := by
  unfold parseDoc at hp
  split at hp
  · simp only [Prod.mk.injEq] at hp
    exfalso
    have hp := hp.2
    unfold orphan at hp
    split at hp
    · simp at hp
    · split at hp <;> simp at hp
  · rename_i ms hms
    have hparts := parts_of hv hms
    split at hp
    · simp at hp
    · rename_i mst hmeta
      have hmd := ok_meta hparts.elems hmeta
      split at hp
      · simp at hp
      · rename_i p hdata
        obtain ⟨hok, hfill⟩ := ok_data (ids_ok hmd) hparts.data hdata
        split at hp
        · simp at hp
        · rename_i r t hrules
          simp only [Prod.mk.injEq, Except.ok.injEq, Option.some.injEq] at hp
          obtain ⟨-, rfl⟩ := hp
          have hsub := rules_perm _ hrules
          have hnew : serializeRules (newRules p.lgr) = [] := rfl
          rw [hnew, List.append_nil] at hsub
          unfold serializeDoc at hs
          dsimp only at hs hf
          split at hs
          · simp at hs
          · rename_i ms' hms'
            split at hs
            · simp at hs
            · rename_i es' hes'
              cases hs
              refine valid_of (meta_matches hmd hms') (data_matches hok.inv ?_ hes') ?_ ?_
              · rcases hf with hf | hf
                · obtain ⟨k, c, hk⟩ := hfill hf hparts.some
                  exact iter_ne hok.inv.wf hk
                · exact hf
              · intro n hn
                exact hparts.rules n (hsub.subset hn)
              · have hu := hparts.unique
                rw [idsAll_flat] at hu ⊢
                obtain ⟨l, hl, hsl⟩ := hsub
                exact ((hl.flatMap_right ids).nodup_iff).1 (hu.sublist (List.Sublist.flatMap hsl ids))

/-- The same of `check_xml_validity`: it finds nothing to complain about. -/
theorem checked_valid_partial (R : Reader) (cs : Rfc7940.Results) (d : Doc) {c' : Rfc7940.Results} {g : Loaded}
    (hv : Valid x R.x d) (hp : parseDoc R cs d = (c', .ok (some g))) (hf : R.force = false ∨ g.lgr.rep.iter ≠ [])
    (o : Bool) (hs : checkXmlValidity x R.x true g = .ok (some o)) : o = true := by
  unfold checkXmlValidity at hs
  rw [if_neg (by decide)] at hs
  split at hs
  · simp at hs
  · rename_i d' hd
    simp only [Except.ok.injEq, Option.some.injEq] at hs
    rw [← hs]
    exact @decide_eq_true _ (Classical.propDecidable _) (written_valid_partial R cs d hv hp hf hd)

/-! ## An example -/

/-- All characters can be in names. -/
def lex0 : Lex :=
  { digit := fun c => decide ('0' ≤ c ∧ c ≤ '9'), start := fun _ => true, name := fun _ => true
    ascii := fun _ h1 h2 => decide_eq_true ⟨h1, h2⟩ }

/-- `a` with a tag and a blocked variant `b`. -/
def char0 : CharObj :=
  { cp := [0x61], attrs := { tags := ["t"] }, vars := [([0x62], [{ cp := [0x62], type := some "blocked" }])] }

theorem char0_ok : CharOk lex0 defs char0 := by
  have hb : collapse "blocked" = "blocked".toList := by decide
  have ht : words "t" = [['t']] := by decide
  refine ⟨by decide, by rintro f l ⟨⟩, ⟨by rintro r ⟨⟩, by rintro r ⟨⟩, by rintro i ⟨⟩, ?_⟩, ?_⟩
  · intro _
    refine .data ?_ (by rintro r ⟨⟩) (Nat.zero_le _)
    refine ⟨by rw [show joinS char0.attrs.tags = "t" from by decide, ht]; simp, ?_⟩
    intro w hw
    rw [show joinS char0.attrs.tags = "t" from by decide, ht] at hw
    simp only [List.mem_singleton] at hw
    subst hw
    exact ⟨by simp, fun c _ => .inl rfl⟩
  · intro v hv
    have : char0.getVariants = [{ cp := [0x62], type := some "blocked" }] := by decide
    rw [this] at hv
    simp only [List.mem_singleton] at hv
    subst hv
    refine ⟨by decide, ?_, by rintro r ⟨⟩, by rintro r ⟨⟩, by rintro r ⟨⟩⟩
    rintro t ⟨⟩
    exact .data ⟨by rw [hb]; decide, fun c _ => .inl rfl⟩ (by rintro r ⟨⟩) (Nat.zero_le _)

/-- A document with a Unicode version, a character, a class, a rule and an action, the latter first. -/
def doc1 : Doc :=
  { metaE := some [{ tag := "unicode-version", text := .plain "6.3.0" }], data := [charElem char0]
    rules := some [.mk "action" [("disp", "valid")] none [], .mk "class" [("name", "c"), ("from-tag", "t")] none []] }

theorem meta0_matches (m : MetaXml.Ctx) : Matches x D metaSectionP []
    [.node (.mk "meta" [] none ([{ tag := "unicode-version", text := .plain "6.3.0" }].map (metaNode m)))] := by
  refine meta_matches (md := {}) ⟨by simp, by simp, by simp, ?_, by simp, by simp⟩ (by decide +kernel)
  rintro s ⟨⟩
  exact default_version

theorem data0_matches {c : CharObj} (h : CharOk x D c) : Matches x D dataSectionP []
    [.node (.mk "data" [] none ([charElem c].map elemNode))] := elem_nodes (.one (char_matches h))

theorem doc1_valid (m : MetaXml.Ctx) : Valid lex0 m doc1 := by
  refine valid_of (meta0_matches m) (data0_matches char0_ok) ?_ (by decide +kernel)
  intro n hn
  simp only [List.mem_cons, List.not_mem_nil, or_false] at hn
  have word : ∀ {s : String}, collapse s ≠ [] → Ty.NMTOKEN.Has lex0 s := fun h => ⟨h, fun c _ => .inl rfl⟩
  have name : ∀ {s : String}, collapse s ≠ [] → Ty.ID.Has lex0 s := by
    intro s h
    show NcName lex0 (collapse s)
    generalize collapse s = w at h
    cases w with
    | nil => exact absurd rfl h
    | cons c w => exact ⟨rfl, fun _ _ => rfl⟩
  rcases hn with rfl | rfl
  · refine .right (.right (elem_nodes (ns := []) ?_))
    exact group_attrs (a := []) (.right .empty) (group_attrs (a := []) (.right .empty)
      (group_attrs (b := []) (.attr (.data (word (by decide)) (by rintro r ⟨⟩) (Nat.zero_le _)))
        (group_attrs (a := []) (.right .empty) (.right .empty))))
  · refine .left (.left (elem_nodes (ns := []) ?_))
    exact group_attrs (b := [("from-tag", "t")]) (.left (.attr (.data (name (by decide)) (by rintro r ⟨⟩) (Nat.zero_le _))))
      (group_attrs (a := []) (.right .empty) (group_attrs (a := []) (.right .empty) (group_attrs (a := []) (.right .empty)
        (.right (.left (.attr (.data (word (by decide)) (by rintro r ⟨⟩) (Nat.zero_le _))))))))

/-- It is read, and written with the class first. -/
theorem doc1_written : (match (parseDoc C104.reader0 [] doc1).2 with
    | .ok (some g) => (match serializeDoc g with
      | .ok d => decide (d.data.length = 1 ∧ (d.rules.getD []).map Node.tag = ["class", "action"])
      | _ => false)
    | _ => false) = true := by decide +kernel

example : ∃ c g d, Valid lex0 C104.reader0.x doc1 ∧ parseDoc C104.reader0 [] doc1 = (c, .ok (some g)) ∧
    C104.reader0.force = false ∧ serializeDoc g = .ok d := by
  have h := doc1_written
  rcases hp : parseDoc C104.reader0 [] doc1 with ⟨c, o⟩
  rw [hp] at h
  match o, h with
  | .ok (some g), h =>
    dsimp only at h
    cases hs : serializeDoc g with
    | error e => rw [hs] at h; simp at h
    | ok d => exact ⟨c, g, d, doc1_valid _, rfl, rfl, hs⟩

/-! ## Violations -/

/-- A document without code points is not valid. -/
theorem empty_invalid {m : MetaXml.Ctx} {ms : List MElem} {ns : Option (List Node)} :
    ¬ Valid x m { metaE := some ms, data := [], rules := ns } := fun h => (parts_of h rfl).some rfl

/-- `b`, which `forced` does not accept. -/
def doc2 : Doc := { doc1 with data := [charElem { cp := [0x62] }] }

/-- A forced reader; `b` is invalid. -/
def forced : Reader := { C104.lenient with strict := true }

theorem doc2_valid (m : MetaXml.Ctx) : Valid lex0 m doc2 := by
  have hp := parts_of (ms := [{ tag := "unicode-version", text := .plain "6.3.0" }]) (doc1_valid m) rfl
  exact valid_of (meta0_matches m) (data0_matches ⟨by decide, by rintro f l ⟨⟩,
    ⟨by rintro r ⟨⟩, by rintro r ⟨⟩, by rintro i ⟨⟩, fun h => absurd rfl h⟩, by
      intro v hv
      rw [show CharObj.getVariants { cp := [0x62] } = [] from by decide] at hv
      simp at hv⟩) hp.rules hp.unique

theorem doc2_written : (match (parseDoc forced [] doc2).2 with
    | .ok (some g) => (match serializeDoc g with
      | .ok d => decide (d.data = [] ∧ d.metaE.isSome)
      | _ => false)
    | _ => false) = true := by decide +kernel

/-- **C147** is violated with `force`: when no code point of a valid document is accepted, what is written is not valid. -/
theorem forced_invalid_wrong : ∃ (R : Reader) (d d' : Doc) (c : Rfc7940.Results) (g : Loaded), Valid lex0 R.x d ∧
    parseDoc R [] d = (c, .ok (some g)) ∧ serializeDoc g = .ok d' ∧ ¬ Valid lex0 R.x d' ∧
    checkXmlValidity lex0 R.x true g = .ok (some false) := by
  have h := doc2_written
  rcases hp : parseDoc forced [] doc2 with ⟨c, o⟩
  rw [hp] at h
  match o, h with
  | .ok (some g), h =>
    dsimp only at h
    cases hs : serializeDoc g with
    | error e => rw [hs] at h; simp at h
    | ok d =>
      rw [hs] at h
      obtain ⟨h1, h2⟩ := of_decide_eq_true h
      have hn : ¬ Valid lex0 forced.x d := by
        obtain ⟨me, da, ru⟩ := d
        obtain ⟨ms, rfl⟩ := Option.isSome_iff_exists.1 h2
        cases h1
        exact empty_invalid
      refine ⟨forced, doc2, d, c, g, doc2_valid _, hp, hs, hn, ?_⟩
      unfold checkXmlValidity
      rw [if_neg (by decide), hs]
      simp [hn]

/-- **C147** is violated by an LGR which is not read: what is written for a new one is not valid. -/
theorem new_invalid_wrong (m : MetaXml.Ctx) : checkXmlValidity x m true { md := {}, lgr := {}, rules := {}, ids := 0 } =
    .ok (some false) := by
  have hs : serializeDoc { md := {}, lgr := {}, rules := {}, ids := 0 } =
      .ok { metaE := some [{ tag := "unicode-version", text := .plain "6.3.0" }], data := [], rules := some [] } := by rfl
  unfold checkXmlValidity
  rw [if_neg (by decide), hs]
  simp [empty_invalid]

/-- A variant which is empty, as RFC 7940 has it for code points to be removed. -/
def doc3 : Doc := { doc1 with data := [{ tag := "char", attrs := [("cp", "0061")], vars := [[("cp", "")]] }] }

theorem doc3_valid (m : MetaXml.Ctx) : Valid lex0 m doc3 := by
  have hp := parts_of (ms := [{ tag := "unicode-version", text := .plain "6.3.0" }]) (doc1_valid m) rfl
  refine valid_of (meta0_matches m) (elem_nodes (.one (.left (elem_nodes ?_)))) hp.rules hp.unique
  have h1 := literal_of (x := lex0) (D := defs) (cps := [0x61]) (by decide)
  have h2 := literal_of (x := lex0) (D := defs) (cps := []) (by decide)
  rw [show String.ofList (cpAttr [0x61]) = "0061" from by decide] at h1
  rw [show String.ofList (cpAttr []) = "" from by decide] at h2
  have hv : Matches lex0 defs variantP [] [.node (.mk "var" [("cp", "")] none [])] :=
    elem_nodes (ns := []) (group_attrs (b := []) (.attr h2) (group_attrs (a := []) (.right .empty)
      (group_attrs (a := []) (.right .empty) (group_attrs (a := []) (.right .empty) (group_attrs (a := []) (.right .empty)
        (.right .empty))))))
  exact group_attrs (b := []) (.attr h1) (group_attrs (a := []) (.right .empty) (group_attrs (a := []) (.right .empty)
    (group_attrs (a := []) (.right .empty) (group_attrs (a := []) (.right .empty) (group_attrs (a := []) (.right .empty)
      (.left (.one hv)))))))

/-- **C147** is violated by the parser: the schema admits an empty variant, but a parser which is not forced raises an
exception, and one which is forced drops it. -/
theorem empty_variant_wrong (m : MetaXml.Ctx) : Valid lex0 m doc3 ∧
    (match (parseDoc C104.reader0 [] doc3).2 with
      | .error e => decide (e = .invalidParameter "cp_or_sequence")
      | _ => false) = true ∧
    (match (parseDoc forced [] doc3).2 with
      | .ok (some g) => decide ((g.lgr.rep.lookup [0x61]).map CharObj.getVariants = some [])
      | _ => false) = true := ⟨doc3_valid m, by decide +kernel, by decide +kernel⟩

end Lgr.Props.C147

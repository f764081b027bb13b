import Verif.Props.ClassXml
import Verif.Props.RuleLimits

/-!
# C103: the rules of a document match what RFC 7940 says

The meaning of the elements of a `<rules>` section is given on the elements, without the objects made of
them.
-/

namespace Lgr.Props.C103
open Lgr Xml Text RulesXml C102 C42 C63

/-! ## The meaning of class elements (RFC 7940, 6.2) -/

/-- The text lists the code point. -/
def TextLists (t : String) (x : Nat) : Prop :=
  ∃ ws, Words t.toList ws ∧ ∃ w ∈ ws, ∃ S, Lists w S ∧ S x

/-- The element in a class lists the code point. -/
def ElemLists (n : Node) (x : Nat) : Prop :=
  (∃ S, Child n S ∧ S x) ∨ (n.tag = "class" ∧ ∃ t, n.text = some t ∧ TextLists t x)

mutual

/-- The set a class element spells, with `ρ` for the names and tags in it. -/
def NSet (db : String → Except Err CpSet) (ρ : Sets) : Node → Nat → Prop
  | .mk tag attrs text children, x =>
    if tag = "class" then
      match dget attrs "by-ref", dget attrs "from-tag", dget attrs "property" with
      | some n, _, _ => ρ.name n x
      | none, some t, _ => ρ.tag t x
      | none, none, some p => ∃ s, db p = .ok s ∧ s x = true
      | none, none, none =>
        (children = [] ∧ ∃ t, text = some t ∧ TextLists t x) ∨ ∃ n ∈ children, ElemLists n x
    else if tag = "complement" then ∃ a, NSets db ρ children = [a] ∧ x < 0x110000 ∧ ¬a x
    else if tag = "union" then ∃ a ∈ NSets db ρ children, a x
    else if tag = "intersection" then ∀ a ∈ NSets db ρ children, a x
    else if tag = "difference" then ∃ a b, NSets db ρ children = [a, b] ∧ a x ∧ ¬b x
    else if tag = "symmetric-difference" then
      ∃ a b, NSets db ρ children = [a, b] ∧ ((a x ∧ ¬b x) ∨ (b x ∧ ¬a x))
    else False

/-- The sets of the children. -/
def NSets (db : String → Except Err CpSet) (ρ : Sets) : List Node → List (Nat → Prop)
  | [] => []
  | n :: ns => NSet db ρ n :: NSets db ρ ns

end

/-! ## Lemmas -/

theorem words_of (s : List Char) : Words s (splitWs s) := by
  obtain ⟨ws, h⟩ := words_exist s
  rw [words_split h]; exact h

theorem text_lists {t : String} {cps : List Nat} (h : textCps (splitWs (strip t.toList)) = .ok cps) (x : Nat) :
    x ∈ cps ↔ TextLists t x := by
  rw [split_strip] at h
  have hall : ∀ w ∈ splitWs t.toList, ∃ S, Lists w S := by
    intro w hw
    by_contra hn
    rw [text_fail ⟨w, hw, hn⟩] at h
    cases h
  obtain ⟨cps', h1, h2⟩ := text_ok hall
  rw [h] at h1
  cases h1
  rw [h2]
  constructor
  · exact fun h => ⟨_, words_of _, h⟩
  · rintro ⟨ws, hw, h⟩
    rw [words_split hw]; exact h

theorem forall_hex' {ws : List (List Char)} {cps : List Nat} (h : ws.mapM parseHex = some cps) :
    List.Forall₂ Hex ws cps := by
  induction ws generalizing cps with
  | nil => cases h; exact .nil
  | cons w ws ih =>
    rw [List.mapM_cons] at h
    cases h1 : parseHex w with
    | none => rw [h1] at h; cases h
    | some n =>
      rw [h1] at h
      cases h2 : ws.mapM parseHex with
      | none => rw [h2] at h; cases h
      | some ns =>
        rw [h2] at h
        cases h
        exact .cons (hex_iff.1 h1) (ih h2)

/-- What the `cp` attribute spells. -/
def Spells (attrs : XAttrs) (cps : List Nat) : Prop :=
  ∃ cp ws, dget attrs "cp" = some cp ∧ Words cp.toList ws ∧ List.Forall₂ Hex ws cps

theorem getCp_iff {attrs : XAttrs} {cps : List Nat} : getCp attrs = .ok cps ↔ Spells attrs cps := by
  unfold getCp Spells
  constructor
  · intro h
    split at h
    · cases h
    · rename_i s hs
      split at h
      · cases h
      · rename_i c hc
        cases h
        exact ⟨s, _, hs, words_of _, forall_hex' hc⟩
  · rintro ⟨cp, ws, h1, h2, h3⟩
    rw [h1]
    simp only [parseCpAttr, words_split h2, mapM_hex h3]

theorem getHex_iff {attrs : XAttrs} {k : String} {n : Nat} :
    getHex attrs k = .ok n ↔ ∃ s, dget attrs k = some s ∧ Hex s.toList n := by
  unfold getHex
  constructor
  · intro h
    split at h
    · cases h
    · rename_i s hs
      split at h
      · cases h
      · rename_i m hm
        cases h
        exact ⟨s, hs, hex_iff.1 hm⟩
  · rintro ⟨s, h1, h2⟩
    rw [h1]
    simp only [hex_iff.2 h2]

theorem child_tag {n : Node} {S : Nat → Prop} (h : Child n S) : n.tag ≠ "class" := by
  cases h with
  | char cp ws cps ht => rw [ht]; decide
  | range a b f l ht => rw [ht]; decide

theorem elem_lists {n : Node} {cps : List Nat} (h : cpsOf n = .ok (some cps)) (x : Nat) :
    x ∈ cps ↔ ElemLists n x := by
  have uniq : ∀ S, Child n S → (x ∈ cps ↔ S x) := by
    intro S hS
    obtain ⟨c, h1, h2⟩ := child_cps hS
    rw [h] at h1
    cases h1
    exact h2 x
  by_cases hc : n.tag = "class"
  · have h' := h
    rw [cpsOf, if_neg (by rw [hc]; decide), if_neg (by rw [hc]; decide), if_pos hc] at h'
    split at h'
    · cases h'
    · rename_i t ht
      cases hx : textCps (splitWs (strip t.toList)) with
      | error e => rw [hx] at h'; cases h'
      | ok c =>
        rw [hx] at h'
        cases h'
        rw [text_lists hx]
        constructor
        · exact fun h => .inr ⟨hc, t, ht, h⟩
        · rintro (⟨S, hS, -⟩ | ⟨-, t', ht', h⟩)
          · exact absurd hc (child_tag hS)
          · rw [ht] at ht'; cases ht'; exact h
  · have key : ∃ S, Child n S := by
      unfold cpsOf at h
      split at h
      · rename_i ht
        cases hg : getCp n.attrs with
        | error e => rw [hg] at h; cases h
        | ok c =>
          obtain ⟨cp, ws, h1, h2, h3⟩ := getCp_iff.1 hg
          exact ⟨_, .char n cp ws c ht h1 h2 h3⟩
      · split at h
        · rename_i ht
          split at h
          · cases h
          · rename_i f hf
            split at h
            · cases h
            · rename_i l hl
              obtain ⟨a, ha, ha'⟩ := getHex_iff.1 hf
              obtain ⟨b, hb, hb'⟩ := getHex_iff.1 hl
              exact ⟨_, .range n a b f l ht ha hb ha' hb'⟩
        · cases h
    constructor
    · intro hx
      obtain ⟨S, hS⟩ := key
      exact .inl ⟨S, hS, (uniq S hS).1 hx⟩
    · rintro (⟨S, hS, hx⟩ | ⟨ht, -⟩)
      · exact (uniq S hS).2 hx
      · exact absurd ht hc

theorem addCps_lists {b b' : BaseCls} {n : Node} (h : addCps b n = .ok b') :
    { b' with codepoints := [] } = { b with codepoints := [] } ∧
    ∀ x, x ∈ b'.codepoints ↔ x ∈ b.codepoints ∨ ElemLists n x := by
  unfold addCps at h
  split at h
  · cases h
  · rename_i cps hc
    split at h
    · cases h
    · split at h
      · cases h
      · cases h
        refine ⟨rfl, fun x => ?_⟩
        rw [← elem_lists hc x]
        simp

theorem addAll_lists : ∀ {ns : List Node} {b b' : BaseCls}, addAll b ns = .ok b' →
    { b' with codepoints := [] } = { b with codepoints := [] } ∧
    ∀ x, x ∈ b'.codepoints ↔ x ∈ b.codepoints ∨ ∃ n ∈ ns, ElemLists n x := by
  intro ns
  induction ns with
  | nil => intro b b' h; cases h; exact ⟨rfl, by simp⟩
  | cons n ns ih =>
    intro b b' h
    rw [addAll] at h
    split at h
    · cases h
    · rename_i b1 h1
      obtain ⟨g1, g2⟩ := addCps_lists h1
      obtain ⟨g3, g4⟩ := ih h
      refine ⟨g3.trans g1, fun x => ?_⟩
      rw [g4, g2]
      simp [or_assoc]

theorem comb_cases {tag : String} {op : Comb} (h : combOf tag = some op) :
    (tag = "complement" ∧ op = .complement) ∨ (tag = "union" ∧ op = .union) ∨
    (tag = "intersection" ∧ op = .intersection) ∨ (tag = "difference" ∧ op = .difference) ∨
    (tag = "symmetric-difference" ∧ op = .symDiff) := by
  unfold combOf at h
  split at h
  · cases h; exact .inl ⟨‹_›, rfl⟩
  · split at h
    · cases h; exact .inr (.inl ⟨‹_›, rfl⟩)
    · split at h
      · cases h; exact .inr (.inr (.inl ⟨‹_›, rfl⟩))
      · split at h
        · cases h; exact .inr (.inr (.inr (.inl ⟨‹_›, rfl⟩)))
        · split at h
          · cases h; exact .inr (.inr (.inr (.inr ⟨‹_›, rfl⟩)))
          · cases h

/-- An induction principle for elements. -/
theorem node_ind {motive : Node → Prop}
    (h : ∀ tag attrs text children, (∀ n ∈ children, motive n) → motive (.mk tag attrs text children)) :
    ∀ n, motive n := by
  intro n
  refine Node.rec (motive_1 := motive) (motive_2 := fun ns => ∀ n ∈ ns, motive n) h (by simp) ?_ n
  intro n ns h1 h2 m hm
  rcases List.mem_cons.mp hm with rfl | hm
  · exact h1
  · exact h2 m hm

theorem addChild_ok {op : Comb} {acc acc' : List Cls} {c : Cls} (h : Cls.addChild op acc c = .ok acc') :
    acc' = acc ++ [c] := by
  unfold Cls.addChild at h
  split at h
  · cases h
  · cases h; rfl

theorem parseClasses_forall {op : Comb} : ∀ {ns : List Node} {acc ks : List Cls},
    parseClasses op acc ns = .ok ks → ∃ r, ks = acc ++ r ∧ List.Forall₂ (fun n k => parseClass n = .ok k) ns r := by
  intro ns
  induction ns with
  | nil =>
    intro acc ks h
    rw [parseClasses] at h
    cases h
    exact ⟨[], by simp, .nil⟩
  | cons n ns ih =>
    intro acc ks h
    rw [parseClasses] at h
    split at h
    · cases h
    · rename_i c hc
      split at h
      · cases h
      · rename_i acc' ha
        obtain ⟨r, h1, h2⟩ := ih h
        rw [addChild_ok ha, List.append_assoc] at h1
        exact ⟨c :: r, h1, .cons hc h2⟩

theorem nsets_eq (db : String → Except Err CpSet) (ρ : Sets) (ns : List Node) :
    NSets db ρ ns = ns.map (NSet db ρ) := by
  induction ns with
  | nil => rfl
  | cons n ns ih => simp [NSets, ih]

theorem mkBase_ok {b b' : BaseCls} {ref : List String} (h : Cls.mkBase b ref = .ok b') : b' = b := by
  unfold Cls.mkBase at h
  split at h
  · split at h
    · cases h
    · cases h; rfl
  · cases h; rfl

/-- The class made of an element has the meaning of the element. -/
theorem class_meaning (db : String → Except Err CpSet) (ρ : Sets) :
    ∀ n k, parseClass n = .ok k → Den db ρ k = NSet db ρ n := by
  refine node_ind ?_
  intro tag attrs text children ih k h
  rw [parseClass] at h
  split at h
  · rename_i ht
    split at h
    · cases h
    · rename_i b hb
      split at h
      · cases h
      · rename_i b1 h1
        split at h
        · cases h
        · rename_i b2 h2
          cases h
          have e0 := mkBase_ok hb
          have e1 : { b1 with codepoints := [] } = { b with codepoints := [] } ∧
              ∀ x, x ∈ b1.codepoints ↔ (children = [] ∧ ∃ t, text = some t ∧ TextLists t x) := by
            split at h1
            · rename_i hc
              obtain ⟨g1, g2⟩ := addCps_lists h1
              refine ⟨g1, fun x => ?_⟩
              rw [g2, e0]
              simp only [List.not_mem_nil, false_or, ElemLists, Node.tag, Node.text, ht, true_and]
              constructor
              · rintro (⟨S, hS, -⟩ | h)
                · exact absurd rfl (child_tag hS)
                · exact ⟨by simpa using hc.1, h⟩
              · exact fun h => .inr h.2
            · rename_i hc
              cases h1
              refine ⟨rfl, fun x => ?_⟩
              rw [e0]
              simp only [List.not_mem_nil, false_iff]
              rintro ⟨rfl, t, rfl, hx⟩
              apply hc
              refine ⟨rfl, ?_⟩
              by_cases hte : t = ""
              · subst hte
                obtain ⟨ws, hw, w, hm, -⟩ := hx
                have := words_split hw
                rw [show splitWs ("" : String).toList = [] from rfl] at this
                subst this
                cases hm
              · simp [truthy, hte]
          obtain ⟨g3, g4⟩ := addAll_lists h2
          have e2 : { b2 with codepoints := [] } = { b with codepoints := [] } := g3.trans e1.1
          have f1 : b2.byRef = dget attrs "by-ref" := (congrArg BaseCls.byRef e2).trans (congrArg BaseCls.byRef e0)
          have f2 : b2.fromTag = dget attrs "from-tag" :=
            (congrArg BaseCls.fromTag e2).trans (congrArg BaseCls.fromTag e0)
          have f3 : b2.property = dget attrs "property" :=
            (congrArg BaseCls.property e2).trans (congrArg BaseCls.property e0)
          funext x
          rw [Den, NSet, if_pos ht, f1, f2, f3]
          cases dget attrs "by-ref" with
          | some n => rfl
          | none =>
            cases dget attrs "from-tag" with
            | some t => rfl
            | none =>
              cases dget attrs "property" with
              | some p => rfl
              | none =>
                simp only [eq_iff_iff]
                rw [g4, e1.2]
  · rename_i ht
    split at h
    · cases h
    · rename_i op hop
      split at h
      · cases h
      · rename_i cs hcs
        cases h
        obtain ⟨r, hr, hf⟩ := parseClasses_forall hcs
        rw [List.nil_append] at hr
        subst hr
        have hd : Dens db ρ cs = NSets db ρ children := by
          rw [dens_eq, nsets_eq]
          clear hcs
          induction hf with
          | nil => rfl
          | @cons n k ns ks h1 _ ih' =>
            rw [List.map_cons, List.map_cons, ih n (by simp) k h1, ih' (fun m hm => ih m (by simp [hm]))]
        funext x
        rw [Den.eq_def, NSet, if_neg ht]
        dsimp only
        rw [hd]
        generalize NSets db ρ children = as
        rcases comb_cases hop with ⟨rfl, rfl⟩ | ⟨rfl, rfl⟩ | ⟨rfl, rfl⟩ | ⟨rfl, rfl⟩ | ⟨rfl, rfl⟩
        · rw [if_pos rfl]
          rcases as with _ | ⟨a, _ | ⟨b, as⟩⟩ <;> simp
        · rw [if_neg (by decide), if_pos rfl]
        · rw [if_neg (by decide), if_neg (by decide), if_pos rfl]
        · rw [if_neg (by decide), if_neg (by decide), if_neg (by decide), if_pos rfl]
          rcases as with _ | ⟨a, _ | ⟨b, _ | ⟨c, as⟩⟩⟩ <;> simp
        · rw [if_neg (by decide), if_neg (by decide), if_neg (by decide), if_neg (by decide), if_pos rfl]
          rcases as with _ | ⟨a, _ | ⟨b, _ | ⟨c, as⟩⟩⟩ <;> simp

end Lgr.Props.C103

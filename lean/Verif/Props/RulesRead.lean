import Verif.DocXml
import Verif.Props.RulesXml

/-!
# C149: which `<rules>` sections are read: references and names

The elements of the section which are declared before an element, and what the element and those inside it refer to.
-/

namespace Lgr.Props.C149
open Lgr Xml Text RulesXml

/-! ## The specification -/

mutual
/-- The elements inside an element, at any depth. -/
def below : Node → List Node
  | .mk _ _ _ ns => belowAll ns

def belowAll : List Node → List Node
  | [] => []
  | n :: ns => n :: below n ++ belowAll ns
end

/-- Classes and combinations of classes. -/
def classTags : List String := ["class", "complement", "union", "intersection", "difference", "symmetric-difference"]

/-- The names of the elements with one of some tags. -/
def declared (tags : List String) (ns : List Node) : List String :=
  (ns.filter (fun n => n.tag ∈ tags)).filterMap (fun n => dget n.attrs "name")

/-- An element inside another one: it has no name, a class to which it refers is among `K` and has no text, a rule to which
it refers is among `R`. -/
structure Good (K R : List String) (m : Node) : Prop where
  name : dget m.attrs "name" = none
  cls : m.tag = "class" → ∀ b, dget m.attrs "by-ref" = some b → b ∈ K ∧ m.text.getD "" = ""
  rule : m.tag = "rule" → ∀ b, dget m.attrs "by-ref" = some b → b ∈ R

/-- An element of the section can be read after those which declare the classes `K` and the rules `R`: a class, a combination of
classes or a rule has a name, and what is inside refers to them. -/
structure Readable (K R : List String) (n : Node) : Prop where
  name : n.tag ≠ "action" → (dget n.attrs "name").isSome = true
  inside : ∀ m ∈ below n, Good K R m

/-- The section can be read: each element can, after those before it. -/
def AllReadable (K R : List String) (ns : List Node) : Prop :=
  ∀ A n B, ns = A ++ n :: B → Readable (K ++ declared classTags A) (R ++ declared ["rule"] A) n

/-! ## Shapes -/

/-- The numbers of classes which can be combined. -/
def arity : Comb → Nat → Prop
  | .complement, k => k = 1
  | .union, k => 2 ≤ k
  | _, k => k = 2

/-- A class or combination of classes as the schema has it. -/
inductive ClassShape : Node → Prop where
  | ref {a : XAttrs} {t : Option String} {b : String} : dget a "by-ref" = some b → dget a "name" = none →
      dget a "from-tag" = none → dget a "property" = none → getList a "ref" = [] → ClassShape (.mk "class" a t [])
  | decl {a : XAttrs} {t : Option String} : dget a "by-ref" = none →
      (∀ s, t = some s → s ≠ "" → ∃ cps, textCps (splitWs (strip s.toList)) = .ok cps) → ClassShape (.mk "class" a t [])
  | op {tag : String} {a : XAttrs} {t : Option String} {ns : List Node} {op : Comb} : tag ≠ "class" → tag ≠ "rule" →
      combOf tag = some op → arity op ns.length → (∀ n ∈ ns, ClassShape n) → ClassShape (.mk tag a t ns)

/-- A part of a rule as the schema has it. -/
inductive MatchShape : Node → Prop where
  | leaf {tag : String} {a : XAttrs} {t : Option String} {c : Count} : tag ∈ ["anchor", "any", "end", "start"] →
      parseCount (dget a "count") = .ok c → dget a "name" = none → MatchShape (.mk tag a t [])
  | char {a : XAttrs} {t : Option String} {c : Count} {cp : Seq} : parseCount (dget a "count") = .ok c →
      dget a "name" = none → getCp a = .ok cp → MatchShape (.mk "char" a t [])
  | many {tag : String} {a : XAttrs} {t : Option String} {ns : List Node} {c : Count} :
      tag ∈ ["choice", "look-ahead", "look-behind"] → parseCount (dget a "count") = .ok c → dget a "name" = none →
      (∀ n ∈ ns, MatchShape n) → MatchShape (.mk tag a t ns)
  | ref {a : XAttrs} {t : Option String} {c : Count} {b : String} : parseCount (dget a "count") = .ok c →
      dget a "name" = none → dget a "by-ref" = some b → MatchShape (.mk "rule" a t [])
  | rule {a : XAttrs} {t : Option String} {ns : List Node} {c : Count} : parseCount (dget a "count") = .ok c →
      dget a "name" = none → dget a "by-ref" = none → (∀ n ∈ ns, MatchShape n) → MatchShape (.mk "rule" a t ns)
  | cls {n : Node} {c : Count} : parseCount (dget n.attrs "count") = .ok c → ClassShape n → MatchShape n

/-! ## What is inside -/

/-- An element and those inside it are good. -/
def Nested (K R : List String) (n : Node) : Prop := ∀ m ∈ n :: below n, Good K R m

theorem mem_belowAll {m : Node} : ∀ {ns : List Node}, m ∈ belowAll ns ↔ ∃ n ∈ ns, m ∈ n :: below n
  | [] => by simp [belowAll]
  | n :: ns => by
    simp only [belowAll, List.cons_append, List.mem_cons, List.mem_append, mem_belowAll (ns := ns)]
    constructor
    · rintro (h | h | ⟨k, h1, h2⟩)
      · exact ⟨n, .inl rfl, .inl h⟩
      · exact ⟨n, .inl rfl, .inr h⟩
      · exact ⟨k, .inr h1, h2⟩
    · rintro ⟨k, rfl | h1, h2⟩
      · rcases h2 with h2 | h2
        · exact .inl h2
        · exact .inr (.inl h2)
      · exact .inr (.inr ⟨k, h1, h2⟩)

theorem below_iff {K R : List String} {n : Node} : (∀ m ∈ below n, Good K R m) ↔ ∀ c ∈ n.children, Nested K R c := by
  obtain ⟨t, a, x, ns⟩ := n
  simp only [below, Node.children, mem_belowAll]
  constructor
  · intro h c hc m hm
    exact h m ⟨c, hc, hm⟩
  · rintro h m ⟨c, hc, hm⟩
    exact h c hc m hm

theorem nested_iff {K R : List String} {n : Node} : Nested K R n ↔ Good K R n ∧ ∀ c ∈ n.children, Nested K R c := by
  rw [← below_iff]
  simp [Nested]

/-! ## Classes -/

section
variable {lk : Lookups} {K R : List String}

theorem parseClasses_iff (hmax : Comb) : ∀ (ns : List Node) (acc : List Cls),
    (Cls.maxChildren hmax = 0 ∨ acc.length + ns.length ≤ Cls.maxChildren hmax) →
    (∀ n ∈ ns, (∃ k, parseClass n = .ok k ∧ k.validate lk.classes false = .ok ()) ↔ Nested K R n) →
    ((∃ cs, parseClasses hmax acc ns = .ok (acc ++ cs) ∧ cs.length = ns.length ∧ Cls.validateAll lk.classes cs = .ok ()) ↔
      ∀ n ∈ ns, Nested K R n)
  | [], acc, _, _ => by
    simp only [List.not_mem_nil, IsEmpty.forall_iff, implies_true, iff_true]
    exact ⟨[], by simp [parseClasses], rfl, rfl⟩
  | n :: ns, acc, hm, hn => by
    have hadd : ∀ k, Cls.addChild hmax acc k = .ok (acc ++ [k]) := by
      intro k
      unfold Cls.addChild
      rw [if_neg]
      simp only [List.length_cons] at hm
      omega
    have ih := fun k : Cls => parseClasses_iff hmax ns (acc ++ [k])
      (by simp only [List.length_append, List.length_cons, List.length_nil] at hm ⊢; omega)
      (fun m hm => hn m (List.mem_cons_of_mem _ hm))
    have h0 := hn n (by simp)
    constructor
    · rintro ⟨cs, h1, h2, h3⟩
      unfold parseClasses at h1
      cases hp : parseClass n with
      | error e => rw [hp] at h1; cases h1
      | ok k =>
        rw [hp] at h1
        dsimp only at h1
        rw [hadd k] at h1
        dsimp only at h1
        cases cs with
        | nil => simp at h2
        | cons k' cs =>
          have hk : k' = k := by
            have := parseClasses_prefix hmax ns (acc ++ [k]) h1
            obtain ⟨r, hr⟩ := this
            simp only [List.append_assoc, List.append_cancel_left_eq] at hr
            simp at hr
            exact hr.1
          subst hk
          simp only [Cls.validateAll] at h3
          cases hv : Cls.validate lk.classes false k' with
          | error e => rw [hv] at h3; cases h3
          | ok u =>
            rw [hv] at h3
            dsimp only at h3
            have h4 := h0.1 ⟨k', hp, hv⟩
            have h5 := (ih k').1 ⟨cs, by rw [h1]; simp, by simpa using h2, h3⟩
            intro m hm
            rcases List.mem_cons.1 hm with rfl | hm
            · exact h4
            · exact h5 m hm
    · intro h
      obtain ⟨k, h1, h2⟩ := h0.2 (h n (by simp))
      obtain ⟨cs, h3, h4, h5⟩ := (ih k).2 (fun m hm => h m (List.mem_cons_of_mem _ hm))
      refine ⟨k :: cs, ?_, by simp [h4], ?_⟩
      · unfold parseClasses
        rw [h1]
        dsimp only
        rw [hadd k]
        dsimp only
        rw [h3]
        simp
      · simp only [Cls.validateAll, h2, h5]
where
  parseClasses_prefix (hmax : Comb) : ∀ (ns : List Node) (acc : List Cls) {r : List Cls},
      parseClasses hmax acc ns = .ok r → ∃ q, r = acc ++ q
    | [], acc, r, h => by
      simp only [parseClasses, Except.ok.injEq] at h
      exact ⟨[], by simp [h]⟩
    | n :: ns, acc, r, h => by
      unfold parseClasses at h
      cases hp : parseClass n with
      | error e => rw [hp] at h; cases h
      | ok k =>
        rw [hp] at h
        dsimp only at h
        cases ha : Cls.addChild hmax acc k with
        | error e => rw [ha] at h; cases h
        | ok acc' =>
          rw [ha] at h
          dsimp only at h
          obtain ⟨q, rfl⟩ := parseClasses_prefix hmax ns acc' h
          unfold Cls.addChild at ha
          split at ha
          · cases ha
          · simp only [Except.ok.injEq] at ha
            subst ha
            exact ⟨k :: q, by simp⟩

/-- The part of a class which is not inside. -/
def Own (K : List String) (top : Bool) (n : Node) : Prop :=
  (dget n.attrs "name").isSome = top ∧
  (n.tag = "class" → ∀ b, dget n.attrs "by-ref" = some b → b ∈ K ∧ n.text.getD "" = "")

theorem class_iff (hK : ∀ b, b ∈ K ↔ (dget lk.classes b).isSome = true) {n : Node} (h : ClassShape n) : ∀ top : Bool,
    (∃ k, parseClass n = .ok k ∧ k.validate lk.classes top = .ok ()) ↔ Own K top n ∧ ∀ c ∈ n.children, Nested K R c := by
  induction h with
  | @ref a t b h1 h2 h3 h4 h5 =>
    intro top
    have hm : Cls.mkBase { name := none, fromTag := none, property := none, byRef := some b } [] =
        .ok { byRef := some b } := rfl
    simp only [Own, Node.attrs, Node.tag, Node.text, Node.children, List.not_mem_nil, IsEmpty.forall_iff, implies_true,
      and_true, h1, h2, h3, h4, h5, Option.isSome_none, true_implies, Option.some.injEq, forall_eq', parseClass, if_true, hm]
    by_cases ht : truthy t = true
    · have : t.getD "" ≠ "" := by cases t <;> simp_all [truthy]
      simp [ht, addCps, cpsOf, Node.tag, Node.text, this]
      cases t with
      | none => simp [truthy] at ht
      | some s =>
        dsimp only
        cases textCps (splitWs (strip s.toList)) <;> simp [Except.map]
    · have : t.getD "" = "" := by cases t <;> simp_all [truthy]
      simp only [ht, and_false, Bool.false_eq_true, if_false, addAll, Except.ok.injEq, this, and_true, exists_eq_left',
        Cls.validate, Option.isSome_some, Option.bind_some, true_and, Option.isNone_none, hK]
      cases hg : dget lk.classes b <;> cases top <;> simp
  | @decl a t h1 h2 =>
    intro top
    simp only [Own, Node.attrs, Node.tag, Node.text, Node.children, List.not_mem_nil, IsEmpty.forall_iff, implies_true,
      and_true, h1, true_implies, reduceCtorEq, parseClass, if_true]
    have hm : ∀ r, Cls.mkBase
        { name := dget a "name", fromTag := dget a "from-tag", property := dget a "property", byRef := none } r = .ok
        { name := dget a "name", fromTag := dget a "from-tag", property := dget a "property", byRef := none } := by
      intro r; simp [Cls.mkBase]
    rw [hm]
    have hv : ∀ l : List Nat, Cls.validate lk.classes top (.base
        { name := dget a "name", fromTag := dget a "from-tag", property := dget a "property", byRef := none, codepoints := l }) = .ok () ↔ (dget a "name").isSome = top := by
      intro l
      cases dget a "name" <;> cases top <;> simp [Cls.validate]
    by_cases ht : truthy t = true
    · cases t with
      | none => simp [truthy] at ht
      | some s =>
        obtain ⟨cps, hc⟩ := h2 s rfl (by rintro rfl; simp [truthy] at ht)
        simp only [List.isEmpty_nil, ht, and_self, if_true, addCps, cpsOf, Node.tag, Node.text, hc, Except.map, addAll,
          show ("class" = "char") = False from by decide, show ("class" = "range") = False from by decide, if_false,
          Option.isSome_none, Bool.false_eq_true, Except.ok.injEq, exists_eq_left', List.nil_append, hv]
    · simp only [ht, and_false, Bool.false_eq_true, if_false, addAll, Except.ok.injEq, exists_eq_left', hv]
  | @op tag a t ns op h1 h2 h3 h4 h5 ih =>
    intro top
    have hl := parseClasses_iff (lk := lk) (K := K) (R := R) op ns [] ?_ ?_
    · simp only [List.nil_append] at hl
      simp only [Own, Node.attrs, Node.tag, Node.text, Node.children, h1, false_implies, and_true, parseClass, if_false, h3, ← hl]
      have hn : (Option.isSome (dget a "name") = top) ↔ ¬ (top = (dget a "name").isNone) := by
        cases dget a "name" <;> cases top <;> simp
      constructor
      · rintro ⟨k, hk, hv⟩
        cases hp : parseClasses op [] ns with
        | error e => rw [hp] at hk; cases hk
        | ok cs =>
          rw [hp] at hk
          simp only [Except.ok.injEq] at hk
          subst hk
          simp only [Cls.validate] at hv
          split at hv
          · cases hv
          · rename_i hne
            refine ⟨hn.2 hne, cs, rfl, ?_, ?_⟩
            · simpa using length_of op ns [] hp
            · cases hva : Cls.validateAll lk.classes cs with
              | ok u => rfl
              | error e => rw [hva] at hv; cases hv
      · rintro ⟨hne, cs, h6, h7, h8⟩
        refine ⟨.comb (dget a "name") op cs, by rw [h6], ?_⟩
        simp only [Cls.validate, if_neg (hn.1 hne), h8]
        rw [← h7] at h4
        cases op <;> dsimp only [arity] at h4 ⊢ <;> rw [if_neg (by omega)]
    · cases op <;> simp only [arity] at h4 <;> simp only [Cls.maxChildren, List.length_nil] <;>
        first | exact .inl trivial | exact .inr (by omega)
    · intro n hn
      rw [ih n hn false, nested_iff]
      constructor
      · rintro ⟨⟨g1, g2⟩, g3⟩
        exact ⟨⟨by simpa using g1, g2, fun hr => absurd hr (shape_tag (h5 n hn))⟩, g3⟩
      · rintro ⟨⟨g1, g2, _⟩, g3⟩
        exact ⟨⟨by simp [g1], g2⟩, g3⟩
where
  length_of (op : Comb) : ∀ (ns : List Node) (acc : List Cls) {r : List Cls}, parseClasses op acc ns = .ok r →
      r.length = acc.length + ns.length
    | [], acc, r, h => by
      simp only [parseClasses, Except.ok.injEq] at h
      simp [h]
    | n :: ns, acc, r, h => by
      unfold parseClasses at h
      cases hp : parseClass n with
      | error e => rw [hp] at h; cases h
      | ok k =>
        rw [hp] at h
        dsimp only at h
        cases ha : Cls.addChild op acc k with
        | error e => rw [ha] at h; cases h
        | ok acc' =>
          rw [ha] at h
          have := length_of op ns acc' h
          unfold Cls.addChild at ha
          split at ha
          · cases ha
          · simp only [Except.ok.injEq] at ha
            subst ha
            simp only [List.length_append, List.length_cons, List.length_nil] at this ⊢
            omega
  shape_tag {n : Node} (h : ClassShape n) : n.tag ≠ "rule" := by
    cases h with
    | ref => simp [Node.tag]
    | decl => simp [Node.tag]
    | op _ h => exact h

/-! ## Rules -/

theorem helpers_iff : ∀ (ns : List Node),
    (∀ n ∈ ns, ∀ s, (∃ s' m, parseHelper s n = (s', .ok (some m)) ∧ m.validate lk false = .ok ()) ↔ Nested K R n) →
    (∀ n ∈ ns, ∀ s s', parseHelper s n ≠ (s', .ok none)) → ∀ s,
    ((∃ s' ms, parseHelpers false s ns = (s', .ok ms) ∧ Matcher.validateAll lk ms = .ok ()) ↔ ∀ n ∈ ns, Nested K R n)
  | [], _, _, s => by
    simp only [List.not_mem_nil, IsEmpty.forall_iff, implies_true, iff_true]
    exact ⟨s, [], by simp [parseHelpers], by simp [Matcher.validateAll]⟩
  | n :: ns, hn, hno, s => by
    have ih := helpers_iff ns (fun m hm => hn m (List.mem_cons_of_mem _ hm)) (fun m hm => hno m (List.mem_cons_of_mem _ hm))
    have h0 := hn n (by simp) s
    constructor
    · rintro ⟨s', ms, h1, h2⟩
      unfold parseHelpers at h1
      cases hp : parseHelper s n with
      | mk s1 o =>
        rw [hp] at h1
        cases o with
        | error e => simp at h1
        | ok o =>
          cases o with
          | none => exact absurd hp (hno n (by simp) s s1)
          | some m =>
            simp only [Bool.false_eq_true, if_false] at h1
            cases hq : parseHelpers false s1 ns with
            | mk s2 r =>
              rw [hq] at h1
              cases r with
              | error e => simp at h1
              | ok ms' =>
                simp only [Prod.mk.injEq, Except.ok.injEq] at h1
                obtain ⟨-, rfl⟩ := h1
                simp only [Matcher.validateAll] at h2
                cases hv : Matcher.validate lk false m with
                | error e => rw [hv] at h2; cases h2
                | ok u =>
                  rw [hv] at h2
                  have h3 := h0.1 ⟨s1, m, hp, hv⟩
                  have h4 := (ih s1).1 ⟨s2, ms', hq, h2⟩
                  intro k hk
                  rcases List.mem_cons.1 hk with rfl | hk
                  · exact h3
                  · exact h4 k hk
    · intro h
      obtain ⟨s1, m, h1, h2⟩ := h0.2 (h n (by simp))
      obtain ⟨s2, ms, h3, h4⟩ := (ih s1).2 (fun m hm => h m (List.mem_cons_of_mem _ hm))
      refine ⟨s2, m :: ms, ?_, ?_⟩
      · unfold parseHelpers
        rw [h1]
        simp only [Bool.false_eq_true, if_false, h3]
      · simp only [Matcher.validateAll, h2, h4]

theorem class_tag {n : Node} (h : ClassShape n) : n.tag = "class" ∨ (combOf n.tag).isSome = true := by
  cases h with
  | ref => exact .inl rfl
  | decl => exact .inl rfl
  | op _ _ h => exact .inr (by simp [Node.tag, h])

theorem op_tags {tag : String} (h : tag = "class" ∨ (combOf tag).isSome = true) : tag ∈ classTags := by
  rcases h with rfl | h
  · decide
  · unfold combOf at h
    simp only [classTags, List.mem_cons, List.not_mem_nil, or_false]
    split at h
    · simp_all
    split at h
    · simp_all
    split at h
    · simp_all
    split at h
    · simp_all
    split at h
    · simp_all
    · simp at h

theorem tags_op {tag : String} (h : tag ∈ classTags) : tag = "class" ∨ (combOf tag).isSome = true := by
  simp only [classTags, List.mem_cons, List.not_mem_nil, or_false] at h
  rcases h with rfl | rfl | rfl | rfl | rfl | rfl <;> decide

theorem helper_class {n : Node} {c : Count} (hc : parseCount (dget n.attrs "count") = .ok c) (h : n.tag ∈ classTags) (s : RState) :
    parseHelper s n = match parseClass n with
      | .error e => (s, .error e)
      | .ok k => (s, .ok (some (.cls k c))) := by
  obtain ⟨t, a, x, ns⟩ := n
  simp only [Node.attrs] at hc
  simp only [Node.tag] at h
  have h1 := tags_op h
  simp only [classTags, List.mem_cons, List.not_mem_nil, or_false] at h
  unfold parseHelper
  rw [hc]
  dsimp only
  have hne : ∀ u ∈ ["anchor", "any", "char", "choice", "end", "look-ahead", "look-behind", "start", "rule"], t ≠ u := by
    rcases h with rfl | rfl | rfl | rfl | rfl | rfl <;> decide
  simp only [List.mem_cons, List.not_mem_nil, or_false, forall_eq_or_imp, forall_eq] at hne
  obtain ⟨n1, n2, n3, n4, n5, n6, n7, n8, n9⟩ := hne
  simp only [n1, n2, n3, n4, n5, n6, n7, n8, n9, if_false]
  rw [if_pos h1]
  cases parseClass (.mk t a x ns) <;> rfl

theorem match_iff (hK : ∀ b, b ∈ K ↔ (dget lk.classes b).isSome = true)
    (hR : ∀ b, b ∈ R ↔ (dget lk.rules b).isSome = true) {n : Node} (h : MatchShape n) :
    (∀ s, (∃ s' m, parseHelper s n = (s', .ok (some m)) ∧ m.validate lk false = .ok ()) ↔ Nested K R n) ∧
    ∀ s s', parseHelper s n ≠ (s', .ok none) := by
  induction h with
  | @leaf tag a t c h1 h2 h3 =>
    have hn : Nested K R (.mk tag a t []) := by
      rw [nested_iff]
      refine ⟨⟨h3, ?_, ?_⟩, by simp [Node.children]⟩
      · intro ht
        simp only [Node.tag] at ht
        subst ht
        simp at h1
      · intro ht
        simp only [Node.tag] at ht
        subst ht
        simp at h1
    simp only [List.mem_cons, List.not_mem_nil, or_false] at h1
    constructor
    · intro s
      simp only [hn, iff_true]
      rcases h1 with rfl | rfl | rfl | rfl
      · exact ⟨s, .anchor, by simp [parseHelper, h2], by simp [Matcher.validate]⟩
      · exact ⟨s, .any c, by simp [parseHelper, h2], by simp [Matcher.validate]⟩
      · exact ⟨s, .fin, by simp [parseHelper, h2], by simp [Matcher.validate]⟩
      · exact ⟨s, .start, by simp [parseHelper, h2], by simp [Matcher.validate]⟩
    · intro s s'
      rcases h1 with rfl | rfl | rfl | rfl <;> simp [parseHelper, h2]
  | @char a t c cp h1 h2 h3 =>
    have hn : Nested K R (.mk "char" a t []) := by
      rw [nested_iff]
      exact ⟨⟨h2, by simp [Node.tag], by simp [Node.tag]⟩, by simp [Node.children]⟩
    constructor
    · intro s
      simp only [hn, iff_true]
      exact ⟨s, .char cp c, by simp [parseHelper, h1, h3], by simp [Matcher.validate]⟩
    · intro s s'
      simp [parseHelper, h1, h3]
  | @many tag a t ns c h1 h2 h3 h4 ih =>
    have hl := helpers_iff (lk := lk) (K := K) (R := R) ns (fun n hn => (ih n hn).1) (fun n hn => (ih n hn).2)
    have hn : Nested K R (.mk tag a t ns) ↔ ∀ n ∈ ns, Nested K R n := by
      rw [nested_iff]
      refine ⟨fun h => h.2, fun h => ⟨⟨h3, ?_, ?_⟩, h⟩⟩
      · intro ht
        simp only [Node.tag] at ht
        subst ht
        simp at h1
      · intro ht
        simp only [Node.tag] at ht
        subst ht
        simp at h1
    rw [hn]
    simp only [List.mem_cons, List.not_mem_nil, or_false] at h1
    constructor
    · intro s
      rw [← hl s]
      rcases h1 with rfl | rfl | rfl
      all_goals
        simp only [parseHelper, h2, String.reduceEq, if_false, if_true]
        cases hp : parseHelpers false s ns with
        | mk s1 r =>
          cases r with
          | error e => simp
          | ok ms =>
            simp only [Prod.mk.injEq, Except.ok.injEq, Option.some.injEq]
            constructor
            · rintro ⟨s', m, ⟨rfl, rfl⟩, h⟩
              exact ⟨_, _, ⟨rfl, rfl⟩, by simpa [Matcher.validate] using h⟩
            · rintro ⟨s', m, ⟨rfl, rfl⟩, h⟩
              exact ⟨_, _, ⟨rfl, rfl⟩, by simpa [Matcher.validate] using h⟩
    · intro s s'
      rcases h1 with rfl | rfl | rfl
      all_goals
        simp only [parseHelper, h2, String.reduceEq, if_false, if_true]
        cases hp : parseHelpers false s ns with
        | mk s1 r => cases r <;> simp
  | @ref a t c b h1 h2 h3 =>
    have hn : Nested K R (.mk "rule" a t []) ↔ b ∈ R := by
      rw [nested_iff]
      constructor
      · intro h
        exact h.1.rule rfl b h3
      · intro h
        refine ⟨⟨h2, by simp [Node.tag], ?_⟩, by simp [Node.children]⟩
        intro _ b' hb
        simp only [Node.attrs] at hb
        rw [h3] at hb
        cases hb
        exact h
    rw [hn, hR]
    constructor
    · intro s
      simp only [parseHelper, h1, h2, h3, String.reduceEq, if_false, if_true, Option.isSome_none, Bool.false_eq_true,
        false_and, Option.isSome_some, parseHelpers, Prod.mk.injEq, Except.ok.injEq, Option.some.injEq]
      constructor
      · rintro ⟨s', m, ⟨rfl, rfl⟩, h⟩
        simp only [Matcher.validate] at h
        cases hg : dget lk.rules b with
        | none => simp [hg] at h
        | some r => rfl
      · intro h
        refine ⟨_, _, ⟨rfl, rfl⟩, ?_⟩
        cases hg : dget lk.rules b with
        | none => simp [hg] at h
        | some r => simp [Matcher.validate, Matcher.validateAll, hg]
    · intro s s'
      simp [parseHelper, h1, h2, h3, parseHelpers]
  | @rule a t ns c h1 h2 h3 h4 ih =>
    have hl := helpers_iff (lk := lk) (K := K) (R := R) ns (fun n hn => (ih n hn).1) (fun n hn => (ih n hn).2)
    have hn : Nested K R (.mk "rule" a t ns) ↔ ∀ n ∈ ns, Nested K R n := by
      rw [nested_iff]
      refine ⟨fun h => h.2, fun h => ⟨⟨h2, by simp [Node.tag], ?_⟩, h⟩⟩
      intro _ b hb
      simp only [Node.attrs] at hb
      rw [h3] at hb
      cases hb
    rw [hn]
    constructor
    · intro s
      rw [← hl { s with nextId := s.nextId + 1 }]
      simp only [parseHelper, h1, h2, h3, String.reduceEq, if_false, if_true, Option.isSome_none, Bool.false_eq_true, and_self]
      cases hp : parseHelpers false { s with nextId := s.nextId + 1 } ns with
      | mk s1 r =>
        cases r with
        | error e => simp
        | ok ms =>
          simp only [Prod.mk.injEq, Except.ok.injEq, Option.some.injEq]
          constructor
          · rintro ⟨s', m, ⟨rfl, rfl⟩, h⟩
            exact ⟨_, _, ⟨rfl, rfl⟩, by simpa [Matcher.validate] using h⟩
          · rintro ⟨s', m, ⟨rfl, rfl⟩, h⟩
            exact ⟨_, _, ⟨rfl, rfl⟩, by simpa [Matcher.validate] using h⟩
    · intro s s'
      simp only [parseHelper, h1, h2, h3, String.reduceEq, if_false, if_true, Option.isSome_none, Bool.false_eq_true, and_self]
      cases hp : parseHelpers false { s with nextId := s.nextId + 1 } ns with
      | mk s1 r => cases r <;> simp
  | @cls n c h1 h2 =>
    have ht := op_tags (class_tag h2)
    have hr : n.tag ≠ "rule" := by
      intro h
      rw [h] at ht
      revert ht
      decide
    have hi := class_iff (R := R) hK h2 false
    constructor
    · intro s
      rw [helper_class h1 ht, nested_iff]
      have hg : Good K R n ↔ Own K false n := by
        constructor
        · rintro ⟨g1, g2, _⟩
          exact ⟨by simp [g1], g2⟩
        · rintro ⟨g1, g2⟩
          exact ⟨by simpa using g1, g2, fun h => absurd h hr⟩
      rw [hg, ← hi]
      cases hp : parseClass n with
      | error e => simp
      | ok k =>
        simp only [Prod.mk.injEq, Except.ok.injEq, Option.some.injEq, exists_eq_left']
        constructor
        · rintro ⟨s', m, ⟨rfl, rfl⟩, h⟩
          simpa [Matcher.validate] using h
        · intro h
          exact ⟨_, _, ⟨rfl, rfl⟩, by simpa [Matcher.validate] using h⟩
    · intro s s'
      rw [helper_class h1 ht]
      cases parseClass n <;> simp

end

/-! ## The section -/

/-- An element of the section as the schema has it. -/
inductive ItemShape : Node → Prop where
  | cls {n : Node} : n.tag ∈ classTags → ClassShape n → dget n.attrs "by-ref" = none → ItemShape n
  | rule {a : XAttrs} {t : Option String} {ns : List Node} : dget a "by-ref" = none → (∀ n ∈ ns, MatchShape n) →
      ItemShape (.mk "rule" a t ns)
  | action {a : XAttrs} {t : Option String} : ¬ ((dget a "match").isSome ∧ (dget a "not-match").isSome) →
      ItemShape (.mk "action" a t [])

theorem name_of_class {n : Node} {k : Cls} (h : parseClass n = .ok k) : RuleState.clsName k = dget n.attrs "name" := by
  obtain ⟨t, a, x, ns⟩ := n
  unfold parseClass at h
  split at h
  · split at h
    · cases h
    · rename_i b hb
      have h1 : b.name = dget a "name" := by
        unfold Cls.mkBase at hb
        split at hb
        · split at hb
          · cases hb
          · cases hb; rfl
        · cases hb; rfl
      split at h
      · cases h
      · rename_i b2 hb2
        have h2 : b2.name = dget a "name" := by
          split at hb2
          · exact (add_name hb2).trans h1
          · cases hb2; exact h1
        split at h
        · cases h
        · rename_i b3 hb3
          simp only [Except.ok.injEq] at h
          subst h
          exact (addAll_name ns hb3).trans h2
  · split at h
    · cases h
    · split at h
      · cases h
      · simp only [Except.ok.injEq] at h
        subst h
        rfl
where
  add_name {b b' : BaseCls} {n : Node} (h : addCps b n = .ok b') : b'.name = b.name := by
    unfold addCps at h
    split at h
    · cases h
    · split at h
      · cases h
      · split at h
        · cases h
        · cases h; rfl
  addAll_name : ∀ (ns : List Node) {b b' : BaseCls}, addAll b ns = .ok b' → b'.name = b.name
    | [], b, b', h => by cases h; rfl
    | n :: ns, b, b', h => by
      unfold addAll at h
      split at h
      · cases h
      · rename_i b1 h1
        exact (addAll_name ns h).trans (add_name h1)

/-- One element, and what is declared after it. -/
theorem item_iff {P : Parser} (hP : P.udb = false) (hf : P.force = false) {s : Rules × RState} {K R : List String}
    (hK : ∀ b, b ∈ K ↔ (dget s.1.rs.lk.classes b).isSome = true) (hR : ∀ b, b ∈ R ↔ (dget s.1.rs.lk.rules b).isSome = true)
    {n : Node} (h : ItemShape n) :
    ((parseItem P s n).2 = .ok () ↔ Readable K R n) ∧
    ((parseItem P s n).2 = .ok () →
      (∀ b, b ∈ K ++ declared classTags [n] ↔ (dget (parseItem P s n).1.1.rs.lk.classes b).isSome = true) ∧
      (∀ b, b ∈ R ++ declared ["rule"] [n] ↔ (dget (parseItem P s n).1.1.rs.lk.rules b).isSome = true)) := by
  have hdec : ∀ tags : List String, n.tag ∈ tags → declared tags [n] = (dget n.attrs "name").toList := by
    intro tags ht
    cases hd : dget n.attrs "name" <;> simp [declared, ht, hd]
  have hdec' : ∀ tags : List String, n.tag ∉ tags → declared tags [n] = [] := by
    intro tags ht
    simp [declared, ht]
  cases h with
  | cls ht hs hb =>
    have hra : n.tag ≠ "rule" ∧ n.tag ≠ "action" := by
      constructor <;> intro h <;> rw [h] at ht <;> revert ht <;> decide
    have hi := class_iff (R := R) hK hs true
    rw [hdec _ ht, hdec' ["rule"] (by simp [hra.1]), List.append_nil]
    have hread : Readable K R n ↔ ∃ k, parseClass n = .ok k ∧ k.validate s.1.rs.lk.classes true = .ok () := by
      rw [hi, ← below_iff]
      constructor
      · rintro ⟨g1, g2⟩
        exact ⟨⟨g1 hra.2, fun _ b h => by rw [hb] at h; cases h⟩, g2⟩
      · rintro ⟨⟨g1, _⟩, g2⟩
        exact ⟨fun _ => g1, g2⟩
    rw [hread]
    unfold parseItem
    rw [if_pos (tags_op ht)]
    cases hp : parseClass n with
    | error e => simp
    | ok k =>
      have hn := name_of_class hp
      dsimp only
      unfold RuleState.addClass
      rw [hf]
      cases hv : Cls.validate s.1.rs.lk.classes true k with
      | error e => simp [hv]
      | ok u =>
        dsimp only
        rw [hn]
        cases hd : dget n.attrs "name" with
        | none =>
          simp only [Except.ok.injEq, exists_eq_left', hv, Option.toList_none, List.append_nil, true_and, true_implies]
          exact ⟨hK, hR⟩
        | some nm =>
          simp only [Except.ok.injEq, exists_eq_left', hv, Option.toList_some, true_and, true_implies]
          refine ⟨?_, hR⟩
          intro b
          rw [dget_dset, List.mem_append, List.mem_singleton, hK]
          by_cases hbn : b = nm
          · simp [hbn]
          · simp [hbn, Ne.symm hbn]
  | @rule a t ns hb hs =>
    have hl := helpers_iff (lk := s.1.rs.lk) (K := K) (R := R) ns (fun m hm => (match_iff hK hR (hs m hm)).1)
      (fun m hm => (match_iff hK hR (hs m hm)).2) { s.2 with nextId := s.2.nextId + 1 }
    have hread : Readable K R (.mk "rule" a t ns) ↔ (dget a "name").isSome = true ∧ ∀ m ∈ ns, Nested K R m := by
      constructor
      · rintro ⟨g1, g2⟩
        exact ⟨g1 (by simp [Node.tag]), below_iff.1 g2⟩
      · rintro ⟨g1, g2⟩
        exact ⟨fun _ => g1, below_iff.2 g2⟩
    rw [hread, ← hl, hdec ["rule"] (by simp [Node.tag]), hdec' classTags (by simp only [Node.tag]; decide), List.append_nil]
    unfold parseItem parseRuleElem
    simp only [Node.tag, Node.attrs, Node.children, hb, Option.isSome_none, Bool.false_eq_true, and_false, if_false]
    rw [if_neg (by decide)]
    simp only [if_true]
    cases hp : parseHelpers false { s.2 with nextId := s.2.nextId + 1 } ns with
    | mk s1 r =>
      cases r with
      | error e => simp
      | ok ms =>
        simp only [RuleState.parseRule, hP, Bool.false_eq_true, if_false, RuleState.addRule, hf, Matcher.validate,
          Option.isSome_none, false_and]
        cases hd : dget a "name" with
        | none => simp
        | some nm =>
          simp only [Option.isNone_some, Bool.true_eq_false, if_false, Option.isSome_some, true_and, Prod.mk.injEq,
            Except.ok.injEq]
          cases hv : Matcher.validateAll s.1.rs.lk ms with
          | error e => simp [hv]
          | ok u =>
            simp only [true_implies, Option.toList_some]
            refine ⟨iff_of_true trivial ⟨_, _, ⟨rfl, rfl⟩, hv⟩, hK, ?_⟩
            intro b
            rw [dget_dset, List.mem_append, List.mem_singleton, hR]
            by_cases hbn : b = nm
            · simp [hbn]
            · simp [hbn, Ne.symm hbn]
  | @action a t hm =>
    rw [hdec' ["rule"] (by simp [Node.tag]), hdec' classTags (by simp only [Node.tag]; decide), List.append_nil, List.append_nil]
    have hread : Readable K R (.mk "action" a t []) := ⟨fun h => absurd rfl h, by simp [below, belowAll]⟩
    simp only [hread, iff_true]
    have hp : ∃ ac, parseAction (.mk "action" a t []) = .ok ac := by
      unfold parseAction Action.mk?
      rw [if_neg]
      · exact ⟨_, rfl⟩
      · rintro ⟨g1, g2⟩
        exact hm ⟨Option.isSome_iff_ne_none.2 g1, Option.isSome_iff_ne_none.2 g2⟩
    obtain ⟨ac, hp⟩ := hp
    unfold parseItem
    rw [hp]
    simp only [Node.tag]
    rw [if_neg (by decide), if_neg (by decide), if_pos trivial]
    exact ⟨rfl, fun _ => ⟨hK, hR⟩⟩

theorem section_iff {P : Parser} (hP : P.udb = false) (hf : P.force = false) : ∀ (ns : List Node) {s : Rules × RState}
    {K R : List String} (_ : ∀ b, b ∈ K ↔ (dget s.1.rs.lk.classes b).isSome = true)
    (_ : ∀ b, b ∈ R ↔ (dget s.1.rs.lk.rules b).isSome = true) (_ : ∀ n ∈ ns, ItemShape n),
    (parseRules P s ns).2 = .ok () ↔ AllReadable K R ns
  | [], s, K, R, _, _, _ => by
    simp [parseRules, forEach, AllReadable]
  | n :: ns, s, K, R, hK, hR, hs => by
    obtain ⟨h1, h2⟩ := item_iff hP hf hK hR (hs n (by simp))
    have hall : AllReadable K R (n :: ns) ↔ Readable K R n ∧
        AllReadable (K ++ declared classTags [n]) (R ++ declared ["rule"] [n]) ns := by
      have hcat : ∀ (tags : List String) (A : List Node), declared tags (n :: A) = declared tags [n] ++ declared tags A := by
        intro tags A
        unfold declared
        rw [← List.filterMap_append, ← List.filter_append]
        rfl
      constructor
      · intro h
        refine ⟨?_, ?_⟩
        · simpa [declared] using h [] n ns rfl
        · intro A m B he
          have := h (n :: A) m B (by rw [he]; rfl)
          rw [hcat classTags, hcat ["rule"], ← List.append_assoc, ← List.append_assoc] at this
          exact this
      · rintro ⟨h3, h4⟩ A m B he
        cases A with
        | nil =>
          simp only [List.nil_append, List.cons.injEq] at he
          obtain ⟨rfl, rfl⟩ := he
          simpa [declared] using h3
        | cons a A =>
          simp only [List.cons_append, List.cons.injEq] at he
          obtain ⟨rfl, rfl⟩ := he
          have := h4 A m B rfl
          rw [hcat classTags, hcat ["rule"], ← List.append_assoc, ← List.append_assoc]
          exact this
    rw [hall]
    unfold parseRules forEach
    cases hp : parseItem P s n with
    | mk s1 o =>
      rw [hp] at h1 h2
      cases o with
      | error e =>
        simp only [reduceCtorEq, false_iff] at h1 ⊢
        exact fun h => h1 h.1
      | ok u =>
        obtain ⟨h3, h4⟩ := h2 rfl
        have h5 := h1.1 rfl
        simp only [h5, true_and]
        exact section_iff hP hf ns h3 h4 (fun m hm => hs m (List.mem_cons_of_mem _ hm))

end Lgr.Props.C149

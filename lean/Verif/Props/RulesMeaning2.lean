import Verif.Props.RulesMeaning

/-!
# C103: the meaning of rule elements
-/

namespace Lgr.Props.C103
open Lgr Xml Text RulesXml C102 C42 C63

/-! ## Specification (RFC 7940, 6.3 and 6.4) -/

/-- Decimal digits with this value. -/
def Dec (w : List Char) (n : Nat) : Prop :=
  w ≠ [] ∧ (∀ c ∈ w, '0' ≤ c ∧ c ≤ '9') ∧
    ∃ ns, List.Forall₂ (fun c d => hexVal c = some d) w ns ∧ n = valueOf 10 ns

/-- What the count attribute says. -/
inductive CountSays : Option String → Count → Prop where
  | none : CountSays none .none
  | empty : CountSays (some "") .none
  | exact (s : String) (n : Nat) : Dec s.toList n → CountSays (some s) (.exact n)
  | range (s : String) (a b : List Char) (lo hi : Nat) : s.toList = a ++ ':' :: b → Dec a lo → Dec b hi →
      CountSays (some s) (.range lo hi)
  | atLeast (s : String) (a : List Char) (n : Nat) : s.toList = a ++ ['+'] → Dec a n →
      CountSays (some s) (.atLeast n)

/-- What elements are about: the label, the meaning of named and tagged classes, of named rules, and of
the anchor. -/
structure NWorld where
  label : Seq
  sets : Sets
  rule : String → Nat → Nat → Prop
  anchor : Nat → Nat → Prop

mutual

/-- The element in a rule matches the part of the label from position `i` up to position `j`. -/
def NHolds (db : String → Except Err CpSet) (w : NWorld) : Node → Nat → Nat → Prop
  | .mk tag attrs text children, i, j =>
    if tag = "start" then i = 0 ∧ j = i
    else if tag = "end" then w.label.length ≤ i ∧ j = i
    else if tag = "anchor" then w.anchor i j
    else if tag = "look-ahead" then (∃ k, NSeq db w children i k) ∧ j = i
    else if tag = "look-behind" then (∃ k, NSeq db w children k i) ∧ j = i
    else ∃ c, CountSays (dget attrs "count") c ∧ Counted (fun i j =>
      if tag = "any" then i < w.label.length ∧ j = i + 1
      else if tag = "char" then ∃ cps, Spells attrs cps ∧ j = i + cps.length ∧ cps <+: w.label.drop i
      else if tag = "choice" then NSome db w children i j
      else if tag = "rule" then
        match dget attrs "by-ref" with
        | some n => w.rule n i j
        | none => NSeq db w children i j
      else ∃ x, w.label[i]? = some x ∧ NSet db w.sets (.mk tag attrs text children) x ∧ j = i + 1) c i j

/-- One after the other. -/
def NSeq (db : String → Except Err CpSet) (w : NWorld) : List Node → Nat → Nat → Prop
  | [], i, j => i = j
  | n :: ns, i, j => ∃ k, NHolds db w n i k ∧ NSeq db w ns k j

/-- One of them. -/
def NSome (db : String → Except Err CpSet) (w : NWorld) : List Node → Nat → Nat → Prop
  | [], _, _ => False
  | n :: ns, i, j => NHolds db w n i j ∨ NSome db w ns i j

end

/-! ## Counts -/

theorem dec_iff {w : List Char} {n : Nat} : parseDec w = some n ↔ Dec w n := by
  unfold parseDec Dec
  split
  · exact ⟨fun h => (by cases h), fun h => absurd rfl h.1⟩
  · rename_i c r
    by_cases ha : (c :: r).all (fun c => decide ('0' ≤ c ∧ c ≤ '9')) = true
    · rw [if_pos ha]
      rw [List.all_eq_true] at ha
      simp only [decide_eq_true_eq] at ha
      rw [Option.map_eq_some_iff]
      constructor
      · rintro ⟨ns, h1, rfl⟩
        exact ⟨by simp, ha, ns, TableSyntax.mapM_hex_iff.1 h1, rfl⟩
      · rintro ⟨-, -, ns, h1, rfl⟩
        exact ⟨ns, TableSyntax.mapM_hex_iff.2 h1, rfl⟩
    · rw [if_neg ha]
      simp only [reduceCtorEq, false_iff]
      rintro ⟨-, h, -⟩
      apply ha
      rw [List.all_eq_true]
      simpa using h

theorem dec_no {w : List Char} {n : Nat} (h : Dec w n) {d : Char} (hd : ¬('0' ≤ d ∧ d ≤ '9')) : d ∉ w :=
  fun hm => hd (h.2.1 d hm)

theorem split_two {d : Char} {a b : List Char} (ha : d ∉ a) (hb : d ∉ b) : splitOn d (a ++ d :: b) = [a, b] := by
  have := splitOn_join d [a, b] (by simp) (by
    intro w hw c hc
    rcases List.mem_cons.1 hw with rfl | hw
    · rintro rfl; exact ha hc
    · rcases List.mem_cons.1 hw with rfl | hw
      · rintro rfl; exact hb hc
      · cases hw)
  simpa [join] using this

theorem count_iff {o : Option String} {c : Count} : parseCount o = .ok c ↔ CountSays o c := by
  constructor
  · intro h
    unfold parseCount at h
    cases o with
    | none =>
      rw [if_pos (by decide)] at h
      cases h
      exact .none
    | some s =>
      by_cases hs : s = ""
      · subst hs
        rw [if_pos (by decide)] at h
        cases h
        exact .empty
      · rw [if_neg (by simp [truthy, hs])] at h
        dsimp only [Option.getD] at h
        split at h
        · split at h
          · rename_i a b hab
            split at h
            · rename_i lo hi h1 h2
              cases h
              refine .range s a b lo hi ?_ (dec_iff.1 h1) (dec_iff.1 h2)
              have := go_pieces ':' s.toList []
              rw [show splitOn.go ':' [] s.toList = [a, b] from hab] at this
              simpa [join] using this.symm
            · cases h
          · cases h
        · split at h
          · rename_i hl
            split at h
            · rename_i n hn
              cases h
              refine .atLeast s _ n ?_ (dec_iff.1 hn)
              rw [List.getLast?_eq_some_iff] at hl
              obtain ⟨ys, hys⟩ := hl
              rw [hys]
              simp
            · cases h
          · split at h
            · rename_i n hn
              cases h
              exact .exact s n (dec_iff.1 hn)
            · cases h
  · intro h
    have hne : ∀ {s : String}, s.toList ≠ [] → ¬ truthy (some s) = false := by
      intro s hs
      have : s ≠ "" := by rintro rfl; exact hs rfl
      simp [truthy, this]
    cases h with
    | none => rfl
    | empty => rfl
    | exact s n hd =>
      unfold parseCount
      rw [if_neg (hne hd.1)]
      dsimp only [Option.getD]
      rw [if_neg (dec_no hd (by decide)), if_neg, dec_iff.2 hd]
      intro hl
      exact dec_no hd (d := '+') (by decide) (List.mem_of_getLast? hl)
    | range s a b lo hi hs ha hb =>
      unfold parseCount
      rw [if_neg (hne (by rw [hs]; simp))]
      dsimp only [Option.getD]
      rw [if_pos (by rw [hs]; simp), hs, split_two (dec_no ha (by decide)) (dec_no hb (by decide))]
      dsimp only
      rw [dec_iff.2 ha, dec_iff.2 hb]
    | atLeast s a n hs ha =>
      unfold parseCount
      rw [if_neg (hne (by rw [hs]; simp))]
      dsimp only [Option.getD]
      have hc : ':' ∉ s.toList := by
        rw [hs, List.mem_append]
        rintro (h | h)
        · exact dec_no ha (by decide) h
        · revert h; decide
      rw [if_neg hc, if_pos (by rw [hs]; simp), hs, List.dropLast_concat, dec_iff.2 ha]

theorem count_unique {o : Option String} {c c' : Count} (h : CountSays o c) (h' : CountSays o c') : c = c' := by
  have := (count_iff.2 h).symm.trans (count_iff.2 h')
  cases this; rfl

/-! ## What is made of an element -/

/-- Elements read one after the other, all handled. -/
inductive Threaded : RState → List Node → RState → List Matcher → Prop where
  | nil (s : RState) : Threaded s [] s []
  | cons (s s1 s2 : RState) (n : Node) (ns : List Node) (m : Matcher) (ms : List Matcher) :
      parseHelper s n = (s1, .ok (some m)) → s1.bad = false → Threaded s1 ns s2 ms →
      Threaded s (n :: ns) s2 (m :: ms)

/-- The cases of an element in a rule. -/
inductive Made (s : RState) (tag : String) (attrs : XAttrs) (text : Option String) (children : List Node)
    (c : Count) : RState → Matcher → Prop where
  | anchor : tag = "anchor" → Made s tag attrs text children c s .anchor
  | start : tag = "start" → Made s tag attrs text children c s .start
  | fin : tag = "end" → Made s tag attrs text children c s .fin
  | any : tag = "any" → Made s tag attrs text children c s (.any c)
  | char (cps : List Nat) : tag = "char" → getCp attrs = .ok cps → Made s tag attrs text children c s (.char cps c)
  | choice (s' : RState) (ms : List Matcher) : tag = "choice" → parseHelpers false s children = (s', .ok ms) →
      Made s tag attrs text children c s' (.choice ms c)
  | ahead (s' : RState) (ms : List Matcher) : tag = "look-ahead" → parseHelpers false s children = (s', .ok ms) →
      Made s tag attrs text children c s' (.ahead ms)
  | behind (s' : RState) (ms : List Matcher) : tag = "look-behind" → parseHelpers false s children = (s', .ok ms) →
      Made s tag attrs text children c s' (.behind ms)
  | rule (s' : RState) (ms : List Matcher) : tag = "rule" →
      parseHelpers (dget attrs "by-ref").isSome { s with nextId := s.nextId + 1 } children = (s', .ok ms) →
      Made s tag attrs text children c s' (.rule s.nextId (dget attrs "name") (dget attrs "by-ref") ms c)
  | cls (k : Cls) : (tag = "class" ∨ (combOf tag).isSome) → parseClass (.mk tag attrs text children) = .ok k →
      Made s tag attrs text children c s (.cls k c)

theorem helper_inv {s s' : RState} {tag : String} {attrs : XAttrs} {text : Option String} {ch : List Node}
    {o : Option Matcher} (h : parseHelper s (.mk tag attrs text ch) = (s', .ok o)) :
    (o = none ∧ s'.bad = true) ∨
    ∃ m c, o = some m ∧ parseCount (dget attrs "count") = .ok c ∧ Made s tag attrs text ch c s' m := by
  rw [parseHelper] at h
  have key : ∀ (cl : Bool) (t : RState) (F : List Matcher → Matcher),
      (match parseHelpers cl t ch with
        | (s, .error e) => (s, .error e)
        | (s, .ok ms) => (s, .ok (some (F ms)))) = (s', (.ok o : Except Err (Option Matcher))) →
      ∃ ms, parseHelpers cl t ch = (s', .ok ms) ∧ o = some (F ms) := by
    intro cl t F he
    rcases hp : parseHelpers cl t ch with ⟨s2, e | ms⟩
    · rw [hp] at he; cases he
    · rw [hp] at he
      cases he
      exact ⟨ms, rfl, rfl⟩
  cases hc : parseCount (dget attrs "count") with
  | error e => rw [hc] at h; cases h
  | ok c =>
    rw [hc] at h
    dsimp only at h
    by_cases h1 : tag = "anchor"
    · rw [if_pos h1] at h; cases h; exact .inr ⟨_, c, rfl, rfl, .anchor h1⟩
    rw [if_neg h1] at h
    by_cases h2 : tag = "any"
    · rw [if_pos h2] at h; cases h; exact .inr ⟨_, c, rfl, rfl, .any h2⟩
    rw [if_neg h2] at h
    by_cases h3 : tag = "char"
    · rw [if_pos h3] at h
      cases hg : getCp attrs with
      | error e => rw [hg] at h; cases h
      | ok cp => rw [hg] at h; cases h; exact .inr ⟨_, c, rfl, rfl, .char cp h3 hg⟩
    rw [if_neg h3] at h
    by_cases h4 : tag = "choice"
    · rw [if_pos h4] at h
      obtain ⟨ms, g, rfl⟩ := key _ _ (fun ms => .choice ms c) h
      exact .inr ⟨_, c, rfl, rfl, .choice s' ms h4 g⟩
    rw [if_neg h4] at h
    by_cases h5 : tag = "end"
    · rw [if_pos h5] at h; cases h; exact .inr ⟨_, c, rfl, rfl, .fin h5⟩
    rw [if_neg h5] at h
    by_cases h6 : tag = "look-ahead"
    · rw [if_pos h6] at h
      obtain ⟨ms, g, rfl⟩ := key _ _ (fun ms => .ahead ms) h
      exact .inr ⟨_, c, rfl, rfl, .ahead s' ms h6 g⟩
    rw [if_neg h6] at h
    by_cases h7 : tag = "look-behind"
    · rw [if_pos h7] at h
      obtain ⟨ms, g, rfl⟩ := key _ _ (fun ms => .behind ms) h
      exact .inr ⟨_, c, rfl, rfl, .behind s' ms h7 g⟩
    rw [if_neg h7] at h
    by_cases h8 : tag = "start"
    · rw [if_pos h8] at h; cases h; exact .inr ⟨_, c, rfl, rfl, .start h8⟩
    rw [if_neg h8] at h
    by_cases h9 : tag = "rule"
    · rw [if_pos h9] at h
      by_cases hn : (dget attrs "name").isSome = true ∧ (dget attrs "by-ref").isSome = true
      · rw [if_pos hn] at h; cases h
      · rw [if_neg hn] at h
        obtain ⟨ms, g, rfl⟩ := key _ _
          (fun ms => .rule s.nextId (dget attrs "name") (dget attrs "by-ref") ms c) h
        exact .inr ⟨_, c, rfl, rfl, .rule s' ms h9 g⟩
    rw [if_neg h9] at h
    by_cases h10 : tag = "class" ∨ (combOf tag).isSome = true
    · rw [if_pos h10] at h
      cases hg : parseClass (.mk tag attrs text ch) with
      | error e => rw [hg] at h; cases h
      | ok k => rw [hg] at h; cases h; exact .inr ⟨_, c, rfl, rfl, .cls k h10 hg⟩
    rw [if_neg h10] at h
    cases h
    exact .inl ⟨rfl, rfl⟩

theorem made_of {s s' : RState} {tag : String} {attrs : XAttrs} {text : Option String} {ch : List Node}
    {m : Matcher} (h : parseHelper s (.mk tag attrs text ch) = (s', .ok (some m))) :
    ∃ c, parseCount (dget attrs "count") = .ok c ∧ Made s tag attrs text ch c s' m := by
  rcases helper_inv h with ⟨h, -⟩ | ⟨m', c, h1, h2, h3⟩
  · cases h
  · cases h1; exact ⟨c, h2, h3⟩

theorem helpers_mono {ns : List Node} {cl : Bool} {s s' : RState} {o : Except Err (List Matcher)}
    (h : parseHelpers cl s ns = (s', o)) (hb : s'.bad = false) : s.bad = false := by
  obtain ⟨j, w, o', h'⟩ := C101.helpers_bad ns cl s.nextId
  have := h' s.bad
  rw [h] at this
  obtain ⟨rfl, -⟩ := Prod.mk.inj this
  simpa using (Bool.or_eq_false_iff.1 hb).1

theorem threaded_of : ∀ {ns : List Node} {cl : Bool} {s s' : RState} {ms : List Matcher},
    parseHelpers cl s ns = (s', .ok ms) → s'.bad = false → Threaded s ns s' ms := by
  intro ns
  induction ns with
  | nil =>
    intro cl s s' ms h _
    rw [parseHelpers] at h
    cases h
    exact .nil _
  | cons n ns ih =>
    intro cl s s' ms h hb
    rw [parseHelpers] at h
    rcases hp : parseHelper s n with ⟨s1, e | _ | m⟩
    · rw [hp] at h; cases h
    · rw [hp] at h
      have hb1 : s1.bad = false := helpers_mono h hb
      obtain ⟨tag, attrs, text, ch⟩ := n
      rcases helper_inv hp with ⟨-, h2⟩ | ⟨m, c, h1, -⟩
      · rw [hb1] at h2; cases h2
      · cases h1
    · rw [hp] at h
      dsimp only at h
      split at h
      · cases h
      · rcases hq : parseHelpers cl s1 ns with ⟨s2, e | ms'⟩
        · rw [hq] at h; cases h
        · rw [hq] at h
          cases h
          exact .cons s s1 s' n ns m ms' hp (helpers_mono hq hb) (ih hq hb)

/-! ## The meaning of what is made -/

/-- The world of objects for a world of elements: classes mean what they spell. -/
def NWorld.of (w : World) (ρ : Sets) : NWorld := ⟨w.label, ρ, w.rule, w.anchor⟩

/-- Classes mean what they spell. -/
def Right (db : String → Except Err CpSet) (w : World) (ρ : Sets) (k : Cls) : Prop :=
  ∀ x, w.cls k x ↔ Den db ρ k x

theorem threaded_mem {s s' : RState} {ns : List Node} {ms : List Matcher} (h : Threaded s ns s' ms)
    {P : Node → Matcher → Prop}
    (hP : ∀ n ∈ ns, ∀ s s' m, parseHelper s n = (s', .ok (some m)) → s'.bad = false → P n m) :
    List.Forall₂ P ns ms := by
  induction h with
  | nil => exact .nil
  | cons s s1 s2 n ns m ms h1 h2 _ ih =>
    exact .cons (hP n (by simp) _ _ _ h1 h2) (ih (fun n' hn => hP n' (by simp [hn])))

/-- A matcher made of an element has the meaning of the element. -/
theorem helper_meaning (db : String → Except Err CpSet) (w : World) (ρ : Sets) : ∀ (n : Node) (s s' : RState) (m : Matcher),
    parseHelper s n = (s', .ok (some m)) → s'.bad = false → C66.Parts (Right db w ρ) (fun _ => True) m →
    ∀ i j, Holds w m i j ↔ NHolds db (NWorld.of w ρ) n i j := by
  refine node_ind ?_
  intro tag attrs text children ih s s' m h hb hp
  obtain ⟨c, hc, hm⟩ := made_of h
  have hcs := count_iff.1 hc
  have lists : ∀ {s s' ms}, Threaded s children s' ms → C66.PartsL (Right db w ρ) (fun _ => True) ms →
      (∀ i j, HoldsSeq w ms i j ↔ NSeq db (NWorld.of w ρ) children i j) ∧
      (∀ i j, HoldsSome w ms i j ↔ NSome db (NWorld.of w ρ) children i j) := by
    intro s s' ms ht hq
    have hf := threaded_mem (P := fun n m => C66.Parts (Right db w ρ) (fun _ => True) m →
      ∀ i j, Holds w m i j ↔ NHolds db (NWorld.of w ρ) n i j) ht
      (fun n hn s s' m h hb hp => ih n hn s s' m h hb hp)
    clear ih h ht hm
    induction hf with
    | nil => exact ⟨fun i j => Iff.rfl, fun i j => Iff.rfl⟩
    | @cons n m ns ms h1 _ ih =>
      obtain ⟨g1, g2⟩ := ih hq.2
      have g := h1 hq.1
      constructor
      · intro i j
        simp only [HoldsSeq, NSeq, g, g1]
      · intro i j
        simp only [HoldsSome, NSome, g, g2]
  have counted : ∀ {R S : Nat → Nat → Prop}, (∀ i j, R i j ↔ S i j) → ∀ i j,
      Counted R c i j ↔ ∃ c, CountSays (dget attrs "count") c ∧ Counted S c i j := by
    intro R S hRS i j
    rw [counted_congr hRS]
    constructor
    · exact fun h => ⟨c, hcs, h⟩
    · rintro ⟨c', h1, h2⟩
      rw [count_unique hcs h1]; exact h2
  intro i j
  cases hm with
  | anchor ht =>
    subst ht
    rw [NHolds, if_neg (by decide), if_neg (by decide), if_pos rfl, Holds]; rfl
  | start ht => subst ht; rw [NHolds, if_pos rfl, Holds]
  | fin ht => subst ht; rw [NHolds, if_neg (by decide), if_pos rfl, Holds]; rfl
  | any ht =>
    subst ht
    rw [NHolds, if_neg (by decide), if_neg (by decide), if_neg (by decide), if_neg (by decide), if_neg (by decide),
      Holds]
    exact counted (fun i j => by rw [if_pos rfl]; rfl) i j
  | char cps ht hg =>
    subst ht
    rw [NHolds, if_neg (by decide), if_neg (by decide), if_neg (by decide), if_neg (by decide), if_neg (by decide),
      Holds]
    refine counted (fun i j => ?_) i j
    rw [if_neg (by decide), if_pos rfl]
    constructor
    · exact fun h => ⟨cps, getCp_iff.1 hg, h⟩
    · rintro ⟨cps', h1, h2⟩
      rw [← getCp_iff, hg] at h1
      cases h1
      exact h2
  | choice _ ms ht hth =>
    subst ht
    rw [NHolds, if_neg (by decide), if_neg (by decide), if_neg (by decide), if_neg (by decide), if_neg (by decide),
      Holds]
    refine counted (fun i j => ?_) i j
    rw [if_neg (by decide), if_neg (by decide), if_pos rfl]
    exact (lists (threaded_of hth hb) hp.2).2 i j
  | ahead _ ms ht hth =>
    subst ht
    rw [NHolds, if_neg (by decide), if_neg (by decide), if_neg (by decide), if_pos rfl, Holds]
    simp only [(lists (threaded_of hth hb) hp).1]
  | behind _ ms ht hth =>
    subst ht
    rw [NHolds, if_neg (by decide), if_neg (by decide), if_neg (by decide), if_neg (by decide), if_pos rfl, Holds]
    simp only [(lists (threaded_of hth hb) hp).1]
  | rule _ ms ht hth =>
    subst ht
    rw [NHolds, if_neg (by decide), if_neg (by decide), if_neg (by decide), if_neg (by decide), if_neg (by decide)]
    cases hr : dget attrs "by-ref" with
    | some n =>
      rw [hr] at hp
      rw [Holds]
      refine counted (fun i j => ?_) i j
      rw [if_neg (by decide), if_neg (by decide), if_neg (by decide), if_pos rfl]
      rfl
    | none =>
      rw [hr] at hp
      rw [Holds]
      refine counted (fun i j => ?_) i j
      rw [if_neg (by decide), if_neg (by decide), if_neg (by decide), if_pos rfl]
      exact (lists (threaded_of hth hb) hp.2).1 i j
  | cls k ht hk =>
    have hne : tag ≠ "start" ∧ tag ≠ "end" ∧ tag ≠ "anchor" ∧ tag ≠ "look-ahead" ∧ tag ≠ "look-behind" ∧
        tag ≠ "any" ∧ tag ≠ "char" ∧ tag ≠ "choice" ∧ tag ≠ "rule" := by
      rcases ht with rfl | ht
      · decide
      · obtain ⟨op, hop⟩ := Option.isSome_iff_exists.1 ht
        rcases comb_cases hop with ⟨rfl, -⟩ | ⟨rfl, -⟩ | ⟨rfl, -⟩ | ⟨rfl, -⟩ | ⟨rfl, -⟩ <;> decide
    obtain ⟨n1, n2, n3, n4, n5, n6, n7, n8, n9⟩ := hne
    rw [NHolds, if_neg n1, if_neg n2, if_neg n3, if_neg n4, if_neg n5, Holds]
    refine counted (fun i j => ?_) i j
    rw [if_neg n6, if_neg n7, if_neg n8, if_neg n9]
    have := hp.2
    simp only [Right, class_meaning db ρ _ k hk] at this
    simp only [this]
    rfl

end Lgr.Props.C103

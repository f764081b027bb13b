import Verif.RuleText
import Verif.Review
import Verif.Props.Rules
import Verif.Props.Collapse
import Verif.Props.ClassXml
import Mathlib.Data.List.Dedup

/-!
# C129: rules which are reported to be the same

Two rules of the same text are reported as an exact match by the review of tables. When the text determines what a
rule matches, and when it does not.
-/

namespace Lgr.Props.C129
open Lgr Text RuleText Lgr.C63

/-! ## Specification -/

/-- What names stand for: the code points of properties, classes and tags. -/
structure Vocabulary where
  db : String → Except Err CpSet
  sets : C42.Sets

/-- What a class which is not made of others means. -/
def BaseMeans (v : Vocabulary) (b : BaseCls) (x : Nat) : Prop := C42.Den v.db v.sets (.base b) x

/-- The classes mean what they spell. -/
def Uses (v : Vocabulary) (w : World) : Prop := ∀ k x, w.cls k x ↔ C42.Den v.db v.sets k x

/-- A class given by a name which does not end its own text. -/
def Named (b : BaseCls) : Prop :=
  match b.byRef, b.fromTag, b.property with
  | some n, _, _ => ']' ∉ n.toList
  | none, some t, _ => ']' ∉ t.toList
  | none, none, some p =>
    ∃ n v, p.toList = n ++ ':' :: v ∧ ':' ∉ n ∧ ':' ∉ v ∧ '=' ∉ n ∧ ']' ∉ n ∧ ']' ∉ v
  | none, none, none => False

/-- A class of one code point, or of three and more in a row. -/
def Interval (b : BaseCls) : Prop :=
  b.byRef = none ∧ b.fromTag = none ∧ b.property = none ∧
    ∃ lo hi, (lo = hi ∨ lo + 2 ≤ hi) ∧ ∀ x, x ∈ b.codepoints ↔ lo ≤ x ∧ x ≤ hi

mutual

/-- Rules without literal sequences, and with classes made of named ones and intervals. -/
def Plain : Matcher → Prop
  | .start => True
  | .fin => True
  | .anchor => True
  | .any _ => True
  | .char cps _ => ∃ x, cps = [x]
  | .ahead ms => PlainAll ms
  | .behind ms => PlainAll ms
  | .choice ms _ => ms ≠ [] ∧ PlainAll ms
  | .cls k _ => C42.Every (fun b => Named b ∨ Interval b) C42.Arity k
  | .rule _ _ (some n) _ _ => ')' ∉ n.toList
  | .rule _ _ none ms _ => PlainAll ms

/-- All of them. -/
def PlainAll : List Matcher → Prop
  | [] => True
  | m :: ms => Plain m ∧ PlainAll ms

end

/-! ## Reading a text back -/

/-- What can be read from a text; names and counts are kept as they are written. -/
inductive Item where
  | start
  | fin
  | anchor
  | any (c : List Char)
  | set (lo hi : Nat)
  | key (k : List Char)
  | ref (k : List Char)
  | bar
  | sym (c : Char)
  | comp (is : List Item)
  | ahead (is : List Item)
  | behind (is : List Item)
  | group (is : List Item) (c : List Char)

/-- The rest after a prefix. -/
def eat (p s : List Char) : Option (List Char) := if p.isPrefixOf s then some (s.drop p.length) else none

/-- Up to a character, and what follows it. -/
def upTo (d : Char) (s : List Char) : List Char × List Char := (s.takeWhile (· ≠ d), (s.dropWhile (· ≠ d)).tail)

/-- A count and the rest. -/
def readCount (s : List Char) : List Char × List Char :=
  if s.head? = some '{' then ((upTo '}' s).1 ++ ['}'], (upTo '}' s).2) else ([], s)

/-- A code point and the rest. -/
def readHex (s : List Char) : Option Nat × List Char :=
  (parseHex (s.takeWhile (fun c => (hexVal c).isSome)), s.dropWhile (fun c => (hexVal c).isSome))

/-- A code point or a range. -/
def readSet (s : List Char) : Option (Item × List Char) :=
  match (readHex s).1 with
  | none => none
  | some lo =>
    match eat "-U+".toList (readHex s).2 with
    | none => some (.set lo lo, (readHex s).2)
    | some r =>
      match (readHex r).1 with
      | none => none
      | some hi => some (.set lo hi, (readHex r).2)

/-- What follows a group. -/
def closeGroup (is : List Item) (r : List Char) : Item × List Char :=
  match eat ['←'] r with
  | some r => (.behind is, r)
  | none => (.group is (readCount r).1, (readCount r).2)

/-- One item. -/
def step (rd : List Char → Option (List Item × List Char)) (s : List Char) : Option (Item × List Char) :=
  match eat "(start)".toList s with
  | some r => some (.start, r)
  | none =>
  match eat "(end)".toList s with
  | some r => some (.fin, r)
  | none =>
  match eat "(any)".toList s with
  | some r => some (.any (readCount r).1, (readCount r).2)
  | none =>
  match eat ['⚓'] s with
  | some r => some (.anchor, r)
  | none =>
  match eat ['|'] s with
  | some r => some (.bar, r)
  | none =>
  match eat ['∪'] s with
  | some r => some (.sym '∪', r)
  | none =>
  match eat ['∩'] s with
  | some r => some (.sym '∩', r)
  | none =>
  match eat ['\\'] s with
  | some r => some (.sym '\\', r)
  | none =>
  match eat ['△'] s with
  | some r => some (.sym '△', r)
  | none =>
  match eat "^{".toList s with
  | some r =>
    match rd r with
    | some (is, '}' :: r) => some (.comp is, r)
    | _ => none
  | none =>
  match eat ['['] s with
  | some r => some (.key (upTo ']' r).1, (upTo ']' r).2)
  | none =>
  match eat "U+".toList s with
  | some r => readSet r
  | none =>
  match eat "(:rule-ref-".toList s with
  | some r => some (.ref (upTo ')' r).1, (upTo ')' r).2)
  | none =>
  match eat "→(".toList s with
  | some r =>
    match rd r with
    | some (is, ')' :: r) => some (.ahead is, r)
    | _ => none
  | none =>
  match eat ['('] s with
  | some r =>
    match rd r with
    | some (is, ')' :: r) => some (closeGroup is r)
    | _ => none
  | none => none

/-- Items up to the end or a closing parenthesis or brace. -/
def read : Nat → List Char → Option (List Item × List Char)
  | 0, _ => none
  | _ + 1, [] => some ([], [])
  | f + 1, c :: s =>
    if c = ' ' then read f s
    else if c = ')' ∨ c = '}' then some ([], c :: s)
    else
      match step (read f) (c :: s) with
      | none => none
      | some (i, r) =>
        match read f r with
        | none => none
        | some (is, r) => some (i :: is, r)

/-- The text is read, however far one looks. -/
def Reads (s : List Char) (p : List Item × List Char) : Prop := ∃ n, ∀ f, n ≤ f → read f s = some p

theorem reads_unique {s : List Char} {p q : List Item × List Char} (h : Reads s p) (h' : Reads s q) : p = q := by
  obtain ⟨n, hn⟩ := h
  obtain ⟨m, hm⟩ := h'
  have := (hn (max n m) (le_max_left _ _)).symm.trans (hm (max n m) (le_max_right _ _))
  exact Option.some.inj this

theorem reads_nil : Reads [] ([], []) := ⟨1, fun f hf => by cases f with
  | zero => omega
  | succ f => rfl⟩

theorem reads_close (s : List Char) : Reads (')' :: s) ([], ')' :: s) := ⟨1, fun f hf => by cases f with
  | zero => omega
  | succ f => rfl⟩

theorem reads_brace (s : List Char) : Reads ('}' :: s) ([], '}' :: s) := ⟨1, fun f hf => by cases f with
  | zero => omega
  | succ f => rfl⟩

theorem reads_space {s : List Char} {p : List Item × List Char} (h : Reads s p) : Reads (' ' :: s) p := by
  obtain ⟨n, hn⟩ := h
  refine ⟨n + 1, fun f hf => ?_⟩
  cases f with
  | zero => omega
  | succ f => exact hn f (by omega)

/-- The item at the front is known, however far one looks. -/
def Steps (s : List Char) (i : Item) (r : List Char) : Prop := ∃ n, ∀ f, n ≤ f → step (read f) s = some (i, r)

theorem reads_cons {c : Char} {s r r' : List Char} {i : Item} {is : List Item} (h1 : c ≠ ' ') (h2 : ¬ (c = ')' ∨ c = '}'))
    (hi : Steps (c :: s) i r) (h : Reads r (is, r')) : Reads (c :: s) (i :: is, r') := by
  obtain ⟨n, hn⟩ := hi
  obtain ⟨m, hm⟩ := h
  refine ⟨max n m + 1, fun f hf => ?_⟩
  cases f with
  | zero => omega
  | succ f =>
    have a := hn f (by omega)
    have b := hm f (by omega)
    simp only [read, if_neg h1, if_neg h2, a, b]

theorem eat_cons (a b : Char) (p s : List Char) :
    eat (a :: p) (b :: s) = if a = b then eat p s else none := by
  unfold eat
  by_cases h : a = b <;> simp [List.isPrefixOf, h]

theorem eat_nil_right (a : Char) (p : List Char) : eat (a :: p) [] = none := rfl

theorem eat_nil (s : List Char) : eat [] s = some s := rfl

theorem eat_append (p s : List Char) : eat p (p ++ s) = some s := by
  induction p with
  | nil => rfl
  | cons a p ih => rw [List.cons_append, eat_cons, if_pos rfl, ih]

/-- What a text which can be read begins with. -/
def Front (s : List Char) : Prop := ∀ c, s.head? = some c → c ∈ [' ', ')', '(', '⚓', '|', '[', 'U', '→', '∪', '∩', '\\', '△', '^', '}']

theorem front_of_reads {s : List Char} {p : List Item × List Char} (h : Reads s p) : Front s := by
  intro c hc
  cases s with
  | nil => cases hc
  | cons d s =>
    cases hc
    obtain ⟨n, hn⟩ := h
    have := hn (n + 1) (by omega)
    by_contra hno
    simp only [List.mem_cons, List.not_mem_nil, or_false, not_or] at hno
    obtain ⟨h1, h2, h3, h4, h5, h6, h7, h8, h9, h10, h11, h12, h13, h14⟩ := hno
    have hs : step (read n) (c :: s) = none := by
      unfold step
      simp only [show "(start)".toList = ['(', 's', 't', 'a', 'r', 't', ')'] from rfl,
        show "(end)".toList = ['(', 'e', 'n', 'd', ')'] from rfl,
        show "(any)".toList = ['(', 'a', 'n', 'y', ')'] from rfl,
        show "U+".toList = ['U', '+'] from rfl, show "^{".toList = ['^', '{'] from rfl, show "→(".toList = ['→', '('] from rfl,
        show "(:rule-ref-".toList = ['(', ':', 'r', 'u', 'l', 'e', '-', 'r', 'e', 'f', '-'] from rfl, eat_cons,
        if_neg (Ne.symm h3), if_neg (Ne.symm h4), if_neg (Ne.symm h5), if_neg (Ne.symm h6), if_neg (Ne.symm h7),
        if_neg (Ne.symm h8), if_neg (Ne.symm h9), if_neg (Ne.symm h10), if_neg (Ne.symm h11), if_neg (Ne.symm h12),
        if_neg (Ne.symm h13)]
    simp [read, h1, h2, h14, hs] at this

/-! ## What the texts are read as -/

/-- In parentheses if there is a count. -/
def wrap (c : Count) (is : List Item) : List Item := if c = .none then is else [.group is (countText c)]

/-- A class which is given by code points or a name. -/
def leaf (b : BaseCls) : List Item :=
  match baseText b with
  | .error _ => []
  | .ok t =>
    match readSet (t.drop 2) with
    | some p => if t.head? = some 'U' then [p.1] else [.key (upTo ']' t.tail).1]
    | none => [.key (upTo ']' t.tail).1]

mutual

/-- The items of a class. -/
def clsCanon : Cls → List Item
  | .base b => leaf b
  | .comb _ .complement cs => [.comp (clsCanons '△' cs)]
  | .comb _ op cs => [.group (clsCanons (symbol op) cs) []]

/-- With a symbol in between. -/
def clsCanons (d : Char) : List Cls → List Item
  | [] => []
  | [k] => clsCanon k
  | k :: l :: ks => clsCanon k ++ .sym d :: clsCanons d (l :: ks)

end

mutual

/-- The items of a matcher. -/
def canon : Matcher → List Item
  | .start => [.start]
  | .fin => [.fin]
  | .anchor => [.anchor]
  | .any c => [.any (countText c)]
  | .char cps c => wrap c [.set (cps.headD 0) (cps.headD 0)]
  | .ahead ms => [.ahead (canons ms)]
  | .behind ms => [.behind (canons ms)]
  | .choice ms c => [.group (canonAlts ms) (countText c)]
  | .cls k c => wrap c (clsCanon k)
  | .rule _ _ (some n) _ c => wrap c [.ref (n.toList ++ [':'])]
  | .rule _ _ none ms c => wrap c (canons ms)

/-- One after the other. -/
def canons : List Matcher → List Item
  | [] => []
  | m :: ms => canon m ++ canons ms

/-- With bars in between. -/
def canonAlts : List Matcher → List Item
  | [] => []
  | [m] => canon m
  | m :: n :: ms => canon m ++ .bar :: canonAlts (n :: ms)

end

/-! ## The texts are read -/

theorem front_eat {s : List Char} (h : Front s) {a : Char} (p : List Char)
    (ha : a ∉ [' ', ')', '(', '⚓', '|', '[', 'U', '→', '∪', '∩', '\\', '△', '^', '}']) : eat (a :: p) s = none := by
  cases s with
  | nil => rfl
  | cons d s =>
    rw [eat_cons, if_neg]
    rintro rfl
    exact ha (h _ rfl)

theorem upTo_mid {d : Char} {a : List Char} (b : List Char) (h : d ∉ a) : upTo d (a ++ d :: b) = (a, b) := by
  unfold upTo
  induction a with
  | nil => simp
  | cons x a ih =>
    rw [List.mem_cons, not_or] at h
    have hx : x ≠ d := Ne.symm h.1
    have := ih h.2
    simp only [Prod.mk.injEq] at this
    simp only [List.cons_append, List.takeWhile_cons, List.dropWhile_cons, hx, ne_eq, not_false_eq_true, decide_true,
      if_true, this.1, this.2]

theorem decStr_not (n : Nat) {c : Char} (hc : ∀ d, d < 10 → digitChar d ≠ c) : c ∉ decStr n := by
  intro h
  obtain ⟨d, hd, he⟩ := List.mem_map.1 h
  exact hc d (digitsOf_lt (b := 10) (by omega) n d hd) he

theorem digit_not_brace : ∀ d, d < 10 → digitChar d ≠ '}' := by decide
theorem digit_not_comma : ∀ d, d < 10 → digitChar d ≠ ',' := by decide

theorem countText_form (c : Count) (h : c ≠ .none) : ∃ a, countText c = '{' :: a ++ ['}'] ∧ '}' ∉ a := by
  have hd := fun n => decStr_not n digit_not_brace
  cases c with
  | none => exact absurd rfl h
  | exact n => exact ⟨_, rfl, hd n⟩
  | range lo hi =>
    refine ⟨decStr lo ++ ',' :: decStr hi, by simp [countText], ?_⟩
    simp [hd]
  | atLeast n =>
    refine ⟨decStr n ++ [','], by simp [countText], ?_⟩
    simp [hd]

theorem readCount_front {s : List Char} (h : Front s) : readCount s = ([], s) := by
  unfold readCount
  rw [if_neg]
  intro hc
  exact absurd (h _ hc) (by decide)

theorem readCount_text (c : Count) {s : List Char} (h : Front s) : readCount (countText c ++ s) = (countText c, s) := by
  by_cases hc : c = .none
  · subst hc
    exact readCount_front h
  · obtain ⟨a, ha, hb⟩ := countText_form c hc
    rw [ha]
    unfold readCount
    rw [if_pos (by rfl)]
    have : '{' :: a ++ ['}'] ++ s = ('{' :: a) ++ '}' :: s := by simp
    rw [this, upTo_mid s (by simp [hb])]

theorem close_count (c : Count) {s : List Char} (h : Front s) (is : List Item) :
    closeGroup is (countText c ++ s) = (.group is (countText c), s) := by
  unfold closeGroup
  rw [readCount_text c h]
  have : eat ['←'] (countText c ++ s) = none := by
    by_cases hc : c = .none
    · subst hc
      exact front_eat h _ (by decide)
    · obtain ⟨a, ha, -⟩ := countText_form c hc
      rw [ha]
      rfl
  rw [this]

/-- A parenthesis with something which can be read in it. -/
theorem steps_paren {t r : List Char} {is : List Item} (h : Reads t (is, ')' :: r)) :
    Steps ('(' :: t) (closeGroup is r).1 (closeGroup is r).2 := by
  have hf := front_of_reads h
  obtain ⟨n, hn⟩ := h
  refine ⟨n, fun f hfn => ?_⟩
  unfold step
  simp only [show "(start)".toList = ['(', 's', 't', 'a', 'r', 't', ')'] from rfl,
    show "(end)".toList = ['(', 'e', 'n', 'd', ')'] from rfl,
    show "(any)".toList = ['(', 'a', 'n', 'y', ')'] from rfl,
    show "U+".toList = ['U', '+'] from rfl, show "→(".toList = ['→', '('] from rfl,
    show "^{".toList = ['^', '{'] from rfl,
    show "(:rule-ref-".toList = ['(', ':', 'r', 'u', 'l', 'e', '-', 'r', 'e', 'f', '-'] from rfl]
  have e1 : eat ['(', 's', 't', 'a', 'r', 't', ')'] ('(' :: t) = none := by
    rw [eat_cons, if_pos rfl]; exact front_eat hf _ (by decide)
  have e2 : eat ['(', 'e', 'n', 'd', ')'] ('(' :: t) = none := by
    rw [eat_cons, if_pos rfl]; exact front_eat hf _ (by decide)
  have e3 : eat ['(', 'a', 'n', 'y', ')'] ('(' :: t) = none := by
    rw [eat_cons, if_pos rfl]; exact front_eat hf _ (by decide)
  have e4 : eat ['(', ':', 'r', 'u', 'l', 'e', '-', 'r', 'e', 'f', '-'] ('(' :: t) = none := by
    rw [eat_cons, if_pos rfl]; exact front_eat hf _ (by decide)
  have e5 : eat ['⚓'] ('(' :: t) = none := by rw [eat_cons, if_neg (by decide)]
  have e6 : eat ['|'] ('(' :: t) = none := by rw [eat_cons, if_neg (by decide)]
  have e7 : eat ['['] ('(' :: t) = none := by rw [eat_cons, if_neg (by decide)]
  have e8 : eat ['U', '+'] ('(' :: t) = none := by rw [eat_cons, if_neg (by decide)]
  have e9 : eat ['→', '('] ('(' :: t) = none := by rw [eat_cons, if_neg (by decide)]
  have e11 : eat ['∪'] ('(' :: t) = none := by rw [eat_cons, if_neg (by decide)]
  have e12 : eat ['∩'] ('(' :: t) = none := by rw [eat_cons, if_neg (by decide)]
  have e13 : eat ['\\'] ('(' :: t) = none := by rw [eat_cons, if_neg (by decide)]
  have e14 : eat ['△'] ('(' :: t) = none := by rw [eat_cons, if_neg (by decide)]
  have e15 : eat ['^', '{'] ('(' :: t) = none := by rw [eat_cons, if_neg (by decide)]
  have e10 : eat ['('] ('(' :: t) = some t := by rw [eat_cons, if_pos rfl]; rfl
  simp only [e1, e2, e3, e4, e5, e6, e7, e8, e9, e10, e11, e12, e13, e14, e15, hn f hfn]

theorem steps_group {t s : List Char} {is : List Item} (c : Count) (h : Reads t (is, ')' :: (countText c ++ s)))
    (hs : Front s) : Steps ('(' :: t) (.group is (countText c)) s := by
  have := steps_paren h
  rwa [close_count c hs] at this

theorem steps_behind {t s : List Char} {is : List Item} (h : Reads t (is, ')' :: '←' :: s)) :
    Steps ('(' :: t) (.behind is) s := steps_paren h

theorem steps_ahead {t s : List Char} {is : List Item} (h : Reads t (is, ')' :: s)) :
    Steps ('→' :: '(' :: t) (.ahead is) s := by
  obtain ⟨n, hn⟩ := h
  refine ⟨n, fun f hfn => ?_⟩
  show (match read f t with
    | some (is, ')' :: r) => some (Item.ahead is, r)
    | _ => none) = _
  rw [hn f hfn]
  rfl

theorem steps_comp {t s : List Char} {is : List Item} (h : Reads t (is, '}' :: s)) :
    Steps ('^' :: '{' :: t) (.comp is) s := by
  obtain ⟨n, hn⟩ := h
  refine ⟨n, fun f hfn => ?_⟩
  show (match read f t with
    | some (is, '}' :: r) => some (Item.comp is, r)
    | _ => none) = _
  rw [hn f hfn]
  rfl

theorem steps_any (c : Count) {s : List Char} (hs : Front s) :
    Steps ("(any)".toList ++ countText c ++ s) (.any (countText c)) s := by
  refine ⟨0, fun f _ => ?_⟩
  show some (Item.any (readCount (countText c ++ s)).1, (readCount (countText c ++ s)).2) = _
  rw [readCount_text c hs]

theorem steps_bar (s : List Char) : Steps ('|' :: s) .bar s := ⟨0, fun _ _ => rfl⟩

theorem steps_ref {n : List Char} (s : List Char) (h : ')' ∉ n) :
    Steps ("(:rule-ref-".toList ++ n ++ [':', ')'] ++ s) (.ref (n ++ [':'])) s := by
  refine ⟨0, fun f _ => ?_⟩
  show some (Item.ref (upTo ')' (n ++ [':', ')'] ++ s)).1, (upTo ')' (n ++ [':', ')'] ++ s)).2) = _
  have : n ++ [':', ')'] ++ s = (n ++ [':']) ++ ')' :: s := by simp
  rw [this, upTo_mid s (by simp [h])]

theorem steps_key {k : List Char} (s : List Char) (h : ']' ∉ k) : Steps ('[' :: k ++ ']' :: s) (.key k) s := by
  refine ⟨0, fun f _ => ?_⟩
  show some (Item.key (upTo ']' (k ++ ']' :: s)).1, (upTo ']' (k ++ ']' :: s)).2) = _
  rw [upTo_mid s h]

theorem cp_hex (n : Nat) : ∀ c ∈ cpToStr n, (hexVal c).isSome = true := by
  obtain ⟨l, h, h1, -⟩ := cpToStr_digits n
  intro c hc
  rw [h] at hc
  obtain ⟨d, hd, rfl⟩ := List.mem_map.1 hc
  rw [hexVal_digitChar (h1 d hd)]
  rfl

theorem readHex_cp (n : Nat) {s : List Char} (h : ∀ c, s.head? = some c → (hexVal c).isSome = false) :
    readHex (cpToStr n ++ s) = (some n, s) := by
  unfold readHex
  rw [List.takeWhile_append_of_pos (cp_hex n), List.dropWhile_append_of_pos (cp_hex n)]
  cases s with
  | nil => simp [parseHex_cpToStr]
  | cons c s => simp [h c rfl, parseHex_cpToStr]

theorem front_not_hex {s : List Char} (h : Front s) : ∀ c, s.head? = some c → (hexVal c).isSome = false := by
  intro c hc
  have hd : ∀ c ∈ [' ', ')', '(', '⚓', '|', '[', 'U', '→', '∪', '∩', '\\', '△', '^', '}'], (hexVal c).isSome = false := by decide
  exact hd c (h c hc)

/-- The text of an interval. -/
def setText (lo hi : Nat) : List Char := if lo = hi then cpText lo else cpText lo ++ '-' :: cpText hi

theorem readSet_text (lo hi : Nat) {s : List Char} (hs : Front s) :
    readSet ((setText lo hi ++ s).drop 2) = some (.set lo hi, s) := by
  unfold setText cpText
  split
  · rename_i h
    subst h
    show readSet (cpToStr lo ++ s) = _
    unfold readSet
    rw [readHex_cp lo (front_not_hex hs)]
    have : eat "-U+".toList s = none := front_eat hs _ (by decide)
    simp only [this]
  · have e : ('U' :: '+' :: cpToStr lo ++ '-' :: 'U' :: '+' :: cpToStr hi ++ s).drop 2 =
      cpToStr lo ++ ("-U+".toList ++ (cpToStr hi ++ s)) := by simp
    rw [e]
    unfold readSet
    rw [readHex_cp lo (by intro c hc; cases hc; rfl)]
    simp only [eat_append, readHex_cp hi (front_not_hex hs)]

theorem steps_set (lo hi : Nat) {s : List Char} (hs : Front s) : Steps (setText lo hi ++ s) (.set lo hi) s := by
  refine ⟨0, fun f _ => ?_⟩
  rw [← readSet_text lo hi hs]
  unfold setText cpText
  split <;> rfl

/-- What a named class is written as. -/
theorem named_text {b : BaseCls} (h : Named b) : ∃ k, baseText b = .ok ('[' :: k ++ [']']) ∧ ']' ∉ k := by
  unfold Named at h
  unfold baseText
  obtain ⟨nm, tg, pr, cps, br⟩ := b
  cases br with
  | some n =>
    refine ⟨":class-ref-".toList ++ n.toList ++ [':'], by simp, ?_⟩
    have h : ']' ∉ n.toList := h
    have h2 : ']' ∉ ":class-ref-".toList := by decide
    simp only [List.mem_append, not_or]
    exact ⟨⟨h2, h⟩, by decide⟩
  | none =>
    cases tg with
    | some t =>
      refine ⟨":class tag=".toList ++ t.toList ++ [':'], by simp, ?_⟩
      have h : ']' ∉ t.toList := h
      have h2 : ']' ∉ ":class tag=".toList := by decide
      simp only [List.mem_append, not_or]
      exact ⟨⟨h2, h⟩, by decide⟩
    | none =>
      cases pr with
      | none => exact h.elim
      | some p =>
        obtain ⟨n, v, hp, h1, h2, -, h3, h4⟩ := h
        have hsp : splitOn ':' p.toList = [n, v] := by
          rw [hp]
          have := splitOn_join ':' [n, v] (by simp) (by
            intro w hw c hc
            rcases List.mem_pair.1 hw with rfl | rfl
            · rintro rfl; exact h1 hc
            · rintro rfl; exact h2 hc)
          simpa [join] using this
        refine ⟨":class property:".toList ++ n ++ '=' :: v ++ [':'], by simp [hsp], ?_⟩
        have h5 : ']' ∉ ":class property:".toList := by decide
        simp only [List.mem_append, List.mem_cons, not_or]
        exact ⟨⟨⟨h5, h3⟩, by decide, h4⟩, by decide, by simp⟩

theorem leaf_named {b : BaseCls} {k : List Char} (h : baseText b = .ok ('[' :: k ++ [']'])) (hk : ']' ∉ k) :
    leaf b = [.key k] := by
  unfold leaf
  rw [h]
  have e : (upTo ']' ('[' :: k ++ [']']).tail).1 = k := by
    show (upTo ']' (k ++ [']'])).1 = k
    rw [upTo_mid [] hk]
  simp only [e]
  split
  · rw [if_neg]
    intro hh
    cases hh
  · rfl

theorem collapse_interval {cps : List Nat} {lo hi : Nat} (hle : lo ≤ hi)
    (h : ∀ x, x ∈ cps ↔ lo ≤ x ∧ x ≤ hi) : collapseCodepoints cps.dedup = .ok [(lo, hi)] := by
  have hne : cps.dedup ≠ [] := by
    intro he
    have := (h lo).2 ⟨le_refl _, hle⟩
    rw [← List.mem_dedup, he] at this
    cases this
  obtain ⟨rs, h1, h2, h3⟩ := C05.collapse_exact cps.dedup (List.nodup_dedup _) hne
  rw [h1, C05.cover_unique rs [(lo, hi)] h2 ⟨by simpa using hle, by simp⟩]
  intro x
  rw [h3, List.mem_dedup, h]
  simp [C05.Covers]

theorem interval_text {b : BaseCls} (h1 : b.byRef = none) (h2 : b.fromTag = none) (h3 : b.property = none) {lo hi : Nat}
    (hl : lo = hi ∨ lo + 2 ≤ hi) (h : ∀ x, x ∈ b.codepoints ↔ lo ≤ x ∧ x ≤ hi) :
    baseText b = .ok (setText lo hi) := by
  unfold baseText formatCollapsed
  simp only [h1, h2, h3, collapse_interval (lo := lo) (hi := hi) (by omega) h]
  unfold setText
  rcases hl with rfl | hl
  · simp [pieceText, join]
  · have e1 : lo ≠ hi := by omega
    have e2 : hi ≠ lo + 1 := by omega
    simp [pieceText, join, e1, e2]

theorem front_nil : Front [] := fun _ h => by cases h

theorem leaf_interval {b : BaseCls} {lo hi : Nat} (h : baseText b = .ok (setText lo hi)) : leaf b = [.set lo hi] := by
  unfold leaf
  rw [h]
  have := readSet_text lo hi front_nil
  rw [List.append_nil] at this
  simp only [this]
  rw [if_pos]
  unfold setText cpText
  split <;> rfl

theorem char_text (x : Nat) : formatCollapsed [x] = .ok (setText x x) := by
  unfold formatCollapsed setText
  simp [collapseCodepoints, sortAsc, collapseLoop, pieceText, join]

/-- The main step: a text in front of something which can be read. -/
def Extends (t : List Char) (is : List Item) : Prop :=
  ∀ s p, Reads s p → Reads (t ++ s) (is ++ p.1, p.2)

theorem extends_nil : Extends [] [] := fun _ _ h => h

theorem extends_append {t u : List Char} {is js : List Item} (h : Extends t is) (h' : Extends u js) :
    Extends (t ++ u) (is ++ js) := by
  intro s p hp
  have := h _ _ (h' s p hp)
  simpa using this

theorem extends_one {c : Char} {t : List Char} {i : Item} (h1 : c ≠ ' ') (h2 : ¬ (c = ')' ∨ c = '}'))
    (h : ∀ s, Front s → Steps (c :: t ++ s) i s) : Extends (c :: t) [i] := by
  intro s p hp
  exact reads_cons h1 h2 (h s (front_of_reads hp)) hp

theorem extends_bar : Extends ['|'] [.bar] := extends_one (by decide) (by decide) (fun s _ => steps_bar s)

theorem extends_space : Extends [' '] [] := fun _ _ h => reads_space h

theorem extends_group {t : List Char} {is : List Item} (h : Extends t is) (c : Count) :
    Extends ('(' :: t ++ ')' :: countText c) [.group is (countText c)] := by
  refine extends_one (by decide) (by decide) (fun s hs => ?_)
  have := steps_group c (h _ _ (reads_close (countText c ++ s))) hs
  simpa using this

theorem extends_counted {t : List Char} {is : List Item} (h : Extends t is) (c : Count) :
    Extends (counted t c) (wrap c is) := by
  unfold counted wrap
  by_cases hc : c = .none
  · subst hc
    exact h
  · obtain ⟨a, ha, -⟩ := countText_form c hc
    rw [if_neg hc, if_pos (by rw [ha]; simp)]
    exact extends_group h c

theorem extends_leaf {b : BaseCls} (h : Named b ∨ Interval b) : ∃ t, baseText b = .ok t ∧ Extends t (leaf b) := by
  rcases h with h | ⟨h1, h2, h3, lo, hi, hl, h⟩
  · obtain ⟨k, hk, hn⟩ := named_text h
    refine ⟨_, hk, ?_⟩
    rw [leaf_named hk hn]
    refine extends_one (by decide) (by decide) (fun s _ => ?_)
    have := steps_key s hn
    simpa using this
  · have ht := interval_text h1 h2 h3 hl h
    refine ⟨_, ht, ?_⟩
    rw [leaf_interval ht]
    have : setText lo hi = 'U' :: (setText lo hi).tail := by
      unfold setText cpText
      split <;> rfl
    rw [this]
    refine extends_one (by decide) (by decide) (fun s hs => ?_)
    rw [← this]
    exact steps_set lo hi hs

theorem extends_sym {d : Char} (h : d = '∪' ∨ d = '∩' ∨ d = '\\' ∨ d = '△') : Extends [d] [.sym d] := by
  rcases h with rfl | rfl | rfl | rfl
  · exact extends_one (by decide) (by decide) (fun s _ => ⟨0, fun _ _ => rfl⟩)
  · exact extends_one (by decide) (by decide) (fun s _ => ⟨0, fun _ _ => rfl⟩)
  · exact extends_one (by decide) (by decide) (fun s _ => ⟨0, fun _ _ => rfl⟩)
  · exact extends_one (by decide) (by decide) (fun s _ => ⟨0, fun _ _ => rfl⟩)

theorem symbol_cases (op : Comb) :
    symbol op = '∪' ∨ symbol op = '∩' ∨ symbol op = '\\' ∨ symbol op = '△' := by
  cases op <;> simp [symbol]

/-- The texts of classes, each of which is read. -/
theorem clsTexts_read {ks : List Cls} (h : ∀ k ∈ ks, ∃ t, clsText k = .ok t ∧ Extends t (clsCanon k)) :
    ∃ ts, clsTexts ks = .ok ts ∧ List.Forall₂ (fun k t => Extends t (clsCanon k)) ks ts := by
  induction ks with
  | nil => exact ⟨[], rfl, .nil⟩
  | cons k ks ih =>
    obtain ⟨t, ht, he⟩ := h k (by simp)
    obtain ⟨ts, hts, hes⟩ := ih (fun x hx => h x (by simp [hx]))
    exact ⟨t :: ts, by simp [clsTexts, ht, hts], .cons he hes⟩

theorem extends_syms {d : Char} (hd : d = '∪' ∨ d = '∩' ∨ d = '\\' ∨ d = '△') {ks : List Cls} {ts : List (List Char)}
    (h : List.Forall₂ (fun k t => Extends t (clsCanon k)) ks ts) : Extends (join d ts) (clsCanons d ks) := by
  induction h with
  | nil => exact extends_nil
  | @cons m t ms ts h hr ih =>
    cases hr with
    | nil => simpa [clsCanons, join] using h
    | @cons m' t' ms ts h' hr =>
      have := extends_append h (extends_append (extends_sym hd) ih)
      simpa [clsCanons, join] using this

/-- Every such class has a text, which is read as its items. -/
theorem cls_read : ∀ k, C42.Every (fun b => Named b ∨ Interval b) C42.Arity k →
    ∃ t, clsText k = .ok t ∧ Extends t (clsCanon k) := by
  refine C42.cls_ind ?_ ?_
  · intro b h
    exact extends_leaf h
  · intro nm op ks ih h
    obtain ⟨ts, h1, h2⟩ := clsTexts_read (fun k hk => ih k hk (C42.everyL_iff.1 h.2 k hk))
    have hne : ts ≠ [] := by
      rintro rfl
      cases h2
      have := h.1
      cases op <;> simp [C42.Arity] at this
    obtain ⟨t, ts, rfl⟩ := List.exists_cons_of_ne_nil hne
    have other : op ≠ .complement → ∃ u, clsText (.comb nm op ks) = .ok u ∧
        Extends u [.group (clsCanons (symbol op) ks) []] := by
      intro hop
      refine ⟨'(' :: join (symbol op) (t :: ts) ++ [')'], ?_, ?_⟩
      · cases op with
        | complement => exact absurd rfl hop
        | union => simp only [clsText, h1]
        | intersection => simp only [clsText, h1]
        | difference => simp only [clsText, h1]
        | symDiff => simp only [clsText, h1]
      · exact extends_group (extends_syms (symbol_cases op) h2) .none
    cases op with
    | complement =>
      have hl : ks.length = 1 := h.1
      have hts : ts = [] := by
        have := h2.length_eq
        simp only [hl, List.length_cons] at this
        exact List.length_eq_zero_iff.1 (by omega)
      subst hts
      refine ⟨'^' :: '{' :: t ++ ['}'], by simp only [clsText, h1], ?_⟩
      refine extends_one (by decide) (by decide) (fun s _ => ?_)
      have := steps_comp (extends_syms (d := '△') (by simp) h2 _ _ (reads_brace s))
      simpa [clsCanon, join] using this
    | union => exact other (by simp)
    | intersection => exact other (by simp)
    | difference => exact other (by simp)
    | symDiff => exact other (by simp)

theorem plainAll_iff {ms : List Matcher} : PlainAll ms ↔ ∀ m ∈ ms, Plain m := by
  induction ms with
  | nil => simp [PlainAll]
  | cons m ms ih => simp [PlainAll, ih]

/-- The texts of a list, each of which is read. -/
theorem texts_read {ms : List Matcher} (h : ∀ m ∈ ms, ∃ t, text m = .ok t ∧ Extends t (canon m)) :
    ∃ ts, texts ms = .ok ts ∧ List.Forall₂ (fun m t => Extends t (canon m)) ms ts := by
  induction ms with
  | nil => exact ⟨[], rfl, .nil⟩
  | cons m ms ih =>
    obtain ⟨t, ht, he⟩ := h m (by simp)
    obtain ⟨ts, hts, hes⟩ := ih (fun x hx => h x (by simp [hx]))
    exact ⟨t :: ts, by simp [texts, ht, hts], .cons he hes⟩

theorem extends_flatten {ms : List Matcher} {ts : List (List Char)}
    (h : List.Forall₂ (fun m t => Extends t (canon m)) ms ts) : Extends ts.flatten (canons ms) := by
  induction h with
  | nil => exact extends_nil
  | cons h _ ih => exact extends_append h ih

theorem extends_join {ms : List Matcher} {ts : List (List Char)}
    (h : List.Forall₂ (fun m t => Extends t (canon m)) ms ts) : Extends (join ' ' ts) (canons ms) := by
  induction h with
  | nil => exact extends_nil
  | @cons m t ms ts h hr ih =>
    cases hr with
    | nil => simpa [canons, join] using h
    | @cons m' t' ms ts h' hr =>
      have := extends_append h (extends_append extends_space ih)
      simpa [canons, join] using this

theorem extends_alts {ms : List Matcher} {ts : List (List Char)}
    (h : List.Forall₂ (fun m t => Extends t (canon m)) ms ts) : Extends (join '|' ts) (canonAlts ms) := by
  induction h with
  | nil => exact extends_nil
  | @cons m t ms ts h hr ih =>
    cases hr with
    | nil => simpa [canonAlts, join] using h
    | @cons m' t' ms ts h' hr =>
      have := extends_append h (extends_append extends_bar ih)
      simpa [canonAlts, join] using this

/-- Every plain matcher has a text, which is read as its items. -/
theorem text_read : ∀ m, Plain m → ∃ t, text m = .ok t ∧ Extends t (canon m) := by
  refine matcher_ind ?_ ?_ ?_ ?_ ?_ ?_ ?_ ?_ ?_ ?_
  · intro _
    exact ⟨_, rfl, extends_one (by decide) (by decide) (fun s _ => ⟨0, fun _ _ => rfl⟩)⟩
  · intro _
    exact ⟨_, rfl, extends_one (by decide) (by decide) (fun s _ => ⟨0, fun _ _ => rfl⟩)⟩
  · intro _
    exact ⟨_, rfl, extends_one (by decide) (by decide) (fun s _ => ⟨0, fun _ _ => rfl⟩)⟩
  · intro c _
    refine ⟨_, rfl, ?_⟩
    have e : "(any)".toList ++ countText c = '(' :: ("any)".toList ++ countText c) := rfl
    rw [e]
    refine extends_one (by decide) (by decide) (fun s hs => ?_)
    exact steps_any c hs
  · rintro _ c ⟨x, rfl⟩
    refine ⟨counted (setText x x) c, by simp [text, char_text], ?_⟩
    refine extends_counted ?_ c
    have : setText x x = 'U' :: (setText x x).tail := by simp [setText, cpText]
    rw [this]
    refine extends_one (by decide) (by decide) (fun s hs => ?_)
    rw [← this]
    exact steps_set x x hs
  · intro ms ih h
    obtain ⟨ts, h1, h2⟩ := texts_read (fun m hm => ih m hm (plainAll_iff.1 h m hm))
    refine ⟨'→' :: '(' :: ts.flatten ++ [')'], by simp only [text, h1], ?_⟩
    refine extends_one (by decide) (by decide) (fun s hs => ?_)
    have := steps_ahead (extends_flatten h2 _ _ (reads_close s))
    simpa [canon] using this
  · intro ms ih h
    obtain ⟨ts, h1, h2⟩ := texts_read (fun m hm => ih m hm (plainAll_iff.1 h m hm))
    refine ⟨'(' :: ts.flatten ++ [')', '←'], by simp only [text, h1], ?_⟩
    refine extends_one (by decide) (by decide) (fun s hs => ?_)
    have := steps_behind (extends_flatten h2 _ _ (reads_close ('←' :: s)))
    simpa [canon] using this
  · intro ms c ih h
    obtain ⟨ts, h1, h2⟩ := texts_read (fun m hm => ih m hm (plainAll_iff.1 h.2 m hm))
    refine ⟨'(' :: join '|' ts ++ ')' :: countText c, by simp only [text, h1], ?_⟩
    exact extends_group (extends_alts h2) c
  · intro k c h
    obtain ⟨t, h1, h2⟩ := cls_read k h
    exact ⟨counted t c, by simp only [text, h1], extends_counted h2 c⟩
  · intro id nm br ms c ih h
    cases br with
    | some n =>
      refine ⟨_, rfl, extends_counted ?_ c⟩
      refine extends_one (by decide) (by decide) (fun s _ => ?_)
      exact steps_ref s h
    | none =>
      obtain ⟨ts, h1, h2⟩ := texts_read (fun m hm => ih m hm (plainAll_iff.1 h m hm))
      exact ⟨counted (join ' ' ts) c, by simp only [text, h1], extends_counted (extends_join h2) c⟩

/-- The text determines the items. -/
theorem same_items {m m' : Matcher} (h : Plain m) (h' : Plain m') (he : text m = text m') : canon m = canon m' := by
  obtain ⟨t, h1, h2⟩ := text_read m h
  obtain ⟨t', h3, h4⟩ := text_read m' h'
  rw [h1, h3] at he
  cases he
  have := reads_unique (h2 [] _ reads_nil) (h4 [] _ reads_nil)
  simpa using this

/-! ## What items mean -/

/-- As often as the text of the count says. -/
def CountedText (R : Nat → Nat → Prop) (t : List Char) (i j : Nat) : Prop := ∃ c, countText c = t ∧ Counted R c i j

mutual

/-- The code points of an item which stands for a class. -/
def SetHolds (v : Vocabulary) : Item → Nat → Prop
  | .set lo hi, x => lo ≤ x ∧ x ≤ hi
  | .key k, x => ∃ b, Named b ∧ baseText b = .ok ('[' :: k ++ [']']) ∧ BaseMeans v b x
  | .comp is, x => x < 0x110000 ∧ ¬ SetsHold v is x
  | .group is _, x => SetsHold v is x
  | _, _ => False

/-- The code points of items with symbols in between. -/
def SetsHold (v : Vocabulary) : List Item → Nat → Prop
  | [], _ => False
  | [a], x => SetHolds v a x
  | a :: .sym d :: is, x =>
    (d = '∪' ∧ (SetHolds v a x ∨ SetsHold v is x)) ∨
    (d = '∩' ∧ SetHolds v a x ∧ SetsHold v is x) ∨
    (d = '\\' ∧ SetHolds v a x ∧ ¬ SetsHold v is x) ∨
    (d = '△' ∧ ((SetHolds v a x ∧ ¬ SetsHold v is x) ∨ (SetsHold v is x ∧ ¬ SetHolds v a x)))
  | _, _ => False

end

/-- There is a symbol of classes. -/
def HasSym (is : List Item) : Prop := ∃ d, Item.sym d ∈ is

/-- One code point. -/
def One (w : World) (P : Nat → Prop) (i j : Nat) : Prop := ∃ x, w.label[i]? = some x ∧ P x ∧ j = i + 1

mutual

/-- What an item matches. -/
def ItemHolds (v : Vocabulary) (w : World) : Item → Nat → Nat → Prop
  | .start, i, j => i = 0 ∧ j = i
  | .fin, i, j => w.label.length ≤ i ∧ j = i
  | .anchor, i, j => w.anchor i j
  | .any c, i, j => CountedText (fun i j => i < w.label.length ∧ j = i + 1) c i j
  | .set lo hi, i, j => One w (SetHolds v (.set lo hi)) i j
  | .key k, i, j => One w (SetHolds v (.key k)) i j
  | .comp is, i, j => One w (SetHolds v (.comp is)) i j
  | .ref k, i, j => ∃ n : String, n.toList ++ [':'] = k ∧ w.rule n i j
  | .bar, _, _ => False
  | .sym _, _, _ => False
  | .ahead is, i, j => (∃ k, ItemsHold v w is (· = i) i k) ∧ j = i
  | .behind is, i, j => (∃ k, ItemsHold v w is (· = k) k i) ∧ j = i
  | .group is c, i, j => CountedText (fun i j => (HasSym is ∧ One w (SetsHold v is) i j) ∨
      (¬ HasSym is ∧ ItemsHold v w is (· = i) i j)) c i j

/-- Items one after the other, or what follows a bar: from one of the positions `K` on, where the whole began at
`i`. -/
def ItemsHold (v : Vocabulary) (w : World) : List Item → (Nat → Prop) → Nat → Nat → Prop
  | [], K, _, j => K j
  | .bar :: is, K, i, j => K j ∨ ItemsHold v w is (· = i) i j
  | it :: is, K, i, j => ItemsHold v w is (fun l => ∃ k, K k ∧ ItemHolds v w it k l) i j

end

theorem count_inj {c c' : Count} (h : countText c = countText c') : c = c' := by
  have hm : ∀ n, ',' ∉ decStr n := fun n => decStr_not n digit_not_comma
  have hi : ∀ (a b : List Char) (x y : Char), x ∉ a → x ∉ b → a ++ x :: [y] = b ++ x :: [y] → a = b := by
    intro a b x y _ _ h
    exact List.append_cancel_right h
  cases c with
  | none => cases c' <;> first | rfl | cases h
  | exact n =>
    cases c' with
    | none => cases h
    | exact m =>
      have := List.append_cancel_right (List.cons.inj h).2
      rw [decStr_inj this]
    | range lo hi =>
      have e : decStr n ++ ['}'] = (decStr lo ++ ',' :: decStr hi) ++ ['}'] := by
        simpa [countText] using h
      have := List.append_cancel_right e
      exact absurd (this ▸ (by simp : ',' ∈ decStr lo ++ ',' :: decStr hi)) (hm n)
    | atLeast m =>
      have e : decStr n ++ ['}'] = (decStr m ++ [',']) ++ ['}'] := by
        simpa [countText] using h
      have := List.append_cancel_right e
      exact absurd (this ▸ (by simp : ',' ∈ decStr m ++ [','])) (hm n)
  | range lo hi =>
    cases c' with
    | none => cases h
    | exact m =>
      have e : decStr m ++ ['}'] = (decStr lo ++ ',' :: decStr hi) ++ ['}'] := by
        simpa [countText] using h.symm
      have := List.append_cancel_right e
      exact absurd (this ▸ (by simp : ',' ∈ decStr lo ++ ',' :: decStr hi)) (hm m)
    | range lo' hi' =>
      have e : (decStr lo ++ ',' :: decStr hi) ++ ['}'] = (decStr lo' ++ ',' :: decStr hi') ++ ['}'] := by
        simpa [countText] using h
      have e := List.append_cancel_right e
      have e1 := congrArg (upTo ',') e
      rw [upTo_mid _ (hm lo), upTo_mid _ (hm lo')] at e1
      rw [decStr_inj (Prod.mk.inj e1).1, decStr_inj (Prod.mk.inj e1).2]
    | atLeast m =>
      have e : (decStr lo ++ ',' :: decStr hi) ++ ['}'] = (decStr m ++ ',' :: []) ++ ['}'] := by
        simpa [countText] using h
      have e := List.append_cancel_right e
      have e1 := congrArg (upTo ',') e
      rw [upTo_mid _ (hm lo), upTo_mid _ (hm m)] at e1
      exact absurd (Prod.mk.inj e1).2 (by
        intro he
        exact digitsOf_ne_nil 10 hi (List.map_eq_nil_iff.1 he))
  | atLeast n =>
    cases c' with
    | none => cases h
    | exact m =>
      have e : decStr m ++ ['}'] = (decStr n ++ [',']) ++ ['}'] := by
        simpa [countText] using h.symm
      have := List.append_cancel_right e
      exact absurd (this ▸ (by simp : ',' ∈ decStr n ++ [','])) (hm m)
    | range lo hi =>
      have e : (decStr n ++ ',' :: []) ++ ['}'] = (decStr lo ++ ',' :: decStr hi) ++ ['}'] := by
        simpa [countText] using h
      have e := List.append_cancel_right e
      have e1 := congrArg (upTo ',') e
      rw [upTo_mid _ (hm n), upTo_mid _ (hm lo)] at e1
      exact absurd (Prod.mk.inj e1).2.symm (by
        intro he
        exact digitsOf_ne_nil 10 hi (List.map_eq_nil_iff.1 he))
    | atLeast m =>
      have e : decStr n ++ [',', '}'] = decStr m ++ [',', '}'] := (List.cons.inj h).2
      rw [decStr_inj (List.append_cancel_right e)]

theorem countedText_iff (R : Nat → Nat → Prop) (c : Count) (i j : Nat) :
    CountedText R (countText c) i j ↔ Counted R c i j := by
  constructor
  · rintro ⟨c', h, hc⟩
    rwa [count_inj h] at hc
  · exact fun h => ⟨c, rfl, h⟩

/-- The text of a named class determines its meaning. -/
theorem key_unique {v : Vocabulary} {b b' : BaseCls} (h : Named b) (h' : Named b') (he : baseText b = baseText b')
    (x : Nat) : BaseMeans v b x ↔ BaseMeans v b' x := by
  unfold Named at h h'
  unfold baseText at he
  unfold BaseMeans
  obtain ⟨nm, tg, pr, cps, br⟩ := b
  obtain ⟨nm', tg', pr', cps', br'⟩ := b'
  have hsp : ∀ {p : String}, (∃ n v, p.toList = n ++ ':' :: v ∧ ':' ∉ n ∧ ':' ∉ v ∧ '=' ∉ n ∧ ']' ∉ n ∧ ']' ∉ v) →
      ∃ n v, p.toList = n ++ ':' :: v ∧ '=' ∉ n ∧ splitOn ':' p.toList = [n, v] := by
    rintro p ⟨n, v, hp, h1, h2, h5, -, -⟩
    refine ⟨n, v, hp, h5, ?_⟩
    rw [hp]
    have := splitOn_join ':' [n, v] (by simp) (by
      intro w hw c hc
      rcases List.mem_pair.1 hw with rfl | rfl
      · rintro rfl; exact h1 hc
      · rintro rfl; exact h2 hc)
    simpa [join] using this
  cases br with
  | some n =>
    cases br' with
    | some n' =>
      have he := Except.ok.inj he
      have := String.ext (List.append_cancel_left (List.append_cancel_right he))
      subst this
      exact Iff.rfl
    | none =>
      cases tg' with
      | some t => simp at he
      | none =>
        cases pr' with
        | none => exact h'.elim
        | some p =>
          obtain ⟨a, c, -, -, hs⟩ := hsp h'
          simp [hs] at he
  | none =>
    cases tg with
    | some t =>
      cases br' with
      | some n' => simp at he
      | none =>
        cases tg' with
        | some t' =>
          have he := Except.ok.inj he
          have := String.ext (List.append_cancel_left (List.append_cancel_right he))
          subst this
          exact Iff.rfl
        | none =>
          cases pr' with
          | none => exact h'.elim
          | some p =>
            obtain ⟨a, c, -, -, hs⟩ := hsp h'
            simp [hs] at he
    | none =>
      cases pr with
      | none => exact h.elim
      | some p =>
        obtain ⟨a, c, hp, hq, hs⟩ := hsp h
        cases br' with
        | some n' => simp [hs] at he
        | none =>
          cases tg' with
          | some t' => simp [hs] at he
          | none =>
            cases pr' with
            | none => exact h'.elim
            | some p' =>
              obtain ⟨a', c', hp', hq', hs'⟩ := hsp h'
              simp only [hs, hs', Except.ok.injEq, List.append_assoc] at he
              have he := List.append_cancel_left he
              have e1 := congrArg (upTo '=') he
              simp only [List.cons_append] at e1
              rw [upTo_mid _ hq, upTo_mid _ hq'] at e1
              have e2 := List.append_cancel_right (Prod.mk.inj e1).2
              have : p = p' := String.ext (by rw [hp, hp', (Prod.mk.inj e1).1, e2])
              subst this
              exact Iff.rfl

/-- Items in front mean what the matcher means. -/
def Meant (v : Vocabulary) (w : World) (is : List Item) (R : Nat → Nat → Prop) : Prop :=
  ∀ js K i j, ItemsHold v w (is ++ js) K i j ↔ ItemsHold v w js (fun l => ∃ k, K k ∧ R k l) i j

theorem itemsHold_cons {v : Vocabulary} {w : World} {it : Item} (h : it ≠ .bar) (is : List Item) (K : Nat → Prop)
    (i j : Nat) :
    ItemsHold v w (it :: is) K i j ↔ ItemsHold v w is (fun l => ∃ k, K k ∧ ItemHolds v w it k l) i j := by
  rw [ItemsHold]
  exact h

theorem meant_one {v : Vocabulary} {w : World} {it : Item} (h : it ≠ .bar) {R : Nat → Nat → Prop}
    (hR : ∀ i j, ItemHolds v w it i j ↔ R i j) : Meant v w [it] R := by
  intro js K i j
  rw [List.singleton_append, itemsHold_cons h]
  simp only [hR]

theorem meant_whole {v : Vocabulary} {w : World} {is : List Item} {R : Nat → Nat → Prop} (h : Meant v w is R)
    (i j : Nat) : ItemsHold v w is (· = i) i j ↔ R i j := by
  have := h [] (· = i) i j
  rw [List.append_nil] at this
  rw [this]
  simp [ItemsHold]

theorem meant_wrap {v : Vocabulary} {w : World} {is : List Item} {R : Nat → Nat → Prop} (h : Meant v w is R)
    (hs : ¬ HasSym is) (c : Count) : Meant v w (wrap c is) (Counted R c) := by
  unfold wrap
  split
  · rename_i hc
    subst hc
    exact h
  · refine meant_one (by simp) (fun i j => ?_)
    rw [ItemHolds, countedText_iff]
    refine counted_congr (fun i j => ?_) c i j
    simp only [hs, false_and, not_false_eq_true, true_and, false_or]
    exact meant_whole h i j

theorem meant_seq {v : Vocabulary} {w : World} {ms : List Matcher} (h : ∀ m ∈ ms, Meant v w (canon m) (Holds w m)) :
    Meant v w (canons ms) (HoldsSeq w ms) := by
  induction ms with
  | nil =>
    intro js K i j
    simp [canons, HoldsSeq]
  | cons m ms ih =>
    intro js K i j
    rw [canons, List.append_assoc, h m (by simp), ih (fun x hx => h x (by simp [hx]))]
    have e : (fun l => ∃ k, (∃ k', K k' ∧ Holds w m k' k) ∧ HoldsSeq w ms k l) =
        fun l => ∃ k, K k ∧ HoldsSeq w (m :: ms) k l := by
      funext l
      simp only [HoldsSeq, eq_iff_iff]
      constructor
      · rintro ⟨k, ⟨k', h1, h2⟩, h3⟩
        exact ⟨k', h1, k, h2, h3⟩
      · rintro ⟨k', h1, k, h2, h3⟩
        exact ⟨k, ⟨k', h1, h2⟩, h3⟩
    rw [e]

theorem meant_alts {v : Vocabulary} {w : World} {ms : List Matcher} (hne : ms ≠ [])
    (h : ∀ m ∈ ms, Meant v w (canon m) (Holds w m)) (i j : Nat) :
    ItemsHold v w (canonAlts ms) (· = i) i j ↔ HoldsSome w ms i j := by
  induction ms with
  | nil => exact absurd rfl hne
  | cons m ms ih =>
    cases ms with
    | nil =>
      rw [canonAlts, meant_whole (h m (by simp))]
      simp [HoldsSome]
    | cons n ms =>
      rw [canonAlts, h m (by simp)]
      have := ih (by simp) (fun x hx => h x (by simp [hx]))
      rw [ItemsHold, this]
      conv_rhs => rw [HoldsSome]
      simp

/-- The item of a class, and what it stands for. -/
def ClsItem (v : Vocabulary) (k : Cls) (it : Item) : Prop :=
  clsCanon k = [it] ∧ it ≠ .bar ∧ (∀ d, it ≠ .sym d) ∧ (∀ x, SetHolds v it x ↔ C42.Den v.db v.sets k x) ∧
    ∀ w i j, ItemHolds v w it i j ↔ One w (SetHolds v it) i j

theorem leaf_item {v : Vocabulary} {b : BaseCls} (h : Named b ∨ Interval b) : ∃ it, ClsItem v (.base b) it := by
  rcases h with h | ⟨h1, h2, h3, lo, hi, hl, h⟩
  · obtain ⟨k, hk, hn⟩ := named_text h
    refine ⟨.key k, leaf_named hk hn, by simp, by simp, fun x => ?_, fun w i j => by rw [ItemHolds]⟩
    rw [SetHolds]
    constructor
    · rintro ⟨b', h1, h2, h3⟩
      exact (key_unique h h1 (hk.trans h2.symm) x).2 h3
    · exact fun h3 => ⟨b, h, hk, h3⟩
  · refine ⟨.set lo hi, leaf_interval (interval_text h1 h2 h3 hl h), by simp, by simp, fun x => ?_,
      fun w i j => by rw [ItemHolds]⟩
    rw [SetHolds, ← h x, C42.Den, h1, h2, h3]

theorem two_items {v : Vocabulary} {a b : Cls} {ia ib : Item} (ha : ClsItem v a ia) (hb : ClsItem v b ib) (d : Char) :
    clsCanons d [a, b] = [ia, .sym d, ib] := by
  simp [clsCanons, ha.1, hb.1]

theorem group_item {v : Vocabulary} {nm : Option String} {op : Comb} {ks : List Cls} (hop : op ≠ .complement)
    (hs : HasSym (clsCanons (symbol op) ks))
    (h : ∀ x, SetsHold v (clsCanons (symbol op) ks) x ↔ C42.Den v.db v.sets (.comb nm op ks) x) :
    ∃ it, ClsItem v (.comb nm op ks) it := by
  refine ⟨.group (clsCanons (symbol op) ks) [], ?_, by simp, by simp, fun x => ?_, fun w i j => ?_⟩
  · cases op with
    | complement => exact absurd rfl hop
    | union => rw [clsCanon]; exact hop
    | intersection => rw [clsCanon]; exact hop
    | difference => rw [clsCanon]; exact hop
    | symDiff => rw [clsCanon]; exact hop
  · rw [SetHolds]
    exact h x
  · rw [ItemHolds]
    have : CountedText (fun i j => (HasSym (clsCanons (symbol op) ks) ∧
        One w (SetsHold v (clsCanons (symbol op) ks)) i j) ∨
        (¬ HasSym (clsCanons (symbol op) ks) ∧ ItemsHold v w (clsCanons (symbol op) ks) (· = i) i j)) [] i j ↔ _ :=
      countedText_iff _ .none i j
    rw [this, Counted]
    simp only [hs, not_true_eq_false, true_and, false_and, or_false, One, SetHolds]

theorem union_items {v : Vocabulary} {ks : List Cls} (hne : ks ≠ []) (h : ∀ k ∈ ks, ∃ it, ClsItem v k it) (x : Nat) :
    SetsHold v (clsCanons '∪' ks) x ↔ ∃ k ∈ ks, C42.Den v.db v.sets k x := by
  induction ks with
  | nil => exact absurd rfl hne
  | cons k ks ih =>
    obtain ⟨it, hi⟩ := h k (by simp)
    cases ks with
    | nil =>
      rw [clsCanons, hi.1, SetsHold, hi.2.2.2.1]
      simp
    | cons l ks =>
      have := ih (by simp) (fun y hy => h y (by simp [hy]))
      rw [clsCanons, hi.1, List.singleton_append, SetsHold, this, hi.2.2.2.1]
      simp

theorem cls_item {v : Vocabulary} : ∀ k, C42.Every (fun b => Named b ∨ Interval b) C42.Arity k →
    ∃ it, ClsItem v k it := by
  refine C42.cls_ind ?_ ?_
  · exact fun b h => leaf_item h
  · intro nm op ks ih h
    have ih' := fun k hk => ih k hk (C42.everyL_iff.1 h.2 k hk)
    have two : ks.length = 2 → ∃ a b ia ib, ks = [a, b] ∧ ClsItem v a ia ∧ ClsItem v b ib := by
      intro hl
      match ks, hl, ih' with
      | [a, b], _, ih' =>
        obtain ⟨ia, ha⟩ := ih' a (by simp)
        obtain ⟨ib, hb⟩ := ih' b (by simp)
        exact ⟨a, b, ia, ib, rfl, ha, hb⟩
    cases op with
    | complement =>
      have hl : ks.length = 1 := h.1
      obtain ⟨a, rfl⟩ := List.length_eq_one_iff.1 hl
      obtain ⟨ia, ha⟩ := ih' a (by simp)
      refine ⟨.comp [ia], by rw [clsCanon, clsCanons, ha.1], by simp, by simp, fun x => ?_, fun w i j => by rw [ItemHolds]⟩
      rw [SetHolds, SetsHold, ha.2.2.2.1, C42.Den]
      simp only [C42.dens_eq, List.map_cons, List.map_nil]
    | union =>
      have hl : 2 ≤ ks.length := h.1
      refine group_item (by simp) ?_ (fun x => ?_)
      · match ks, hl with
        | a :: b :: ks, _ => exact ⟨'∪', by simp [clsCanons, symbol]⟩
      · rw [show symbol .union = '∪' from rfl, union_items (by rintro rfl; simp at hl) ih', C42.Den]
        simp [C42.dens_eq]
    | intersection =>
      obtain ⟨a, b, ia, ib, rfl, ha, hb⟩ := two h.1
      refine group_item (by simp) ⟨symbol .intersection, by rw [two_items ha hb]; simp⟩ (fun x => ?_)
      rw [two_items ha hb, SetsHold, SetsHold, ha.2.2.2.1, hb.2.2.2.1, C42.Den]
      simp [C42.dens_eq, symbol]
    | difference =>
      obtain ⟨a, b, ia, ib, rfl, ha, hb⟩ := two h.1
      refine group_item (by simp) ⟨symbol .difference, by rw [two_items ha hb]; simp⟩ (fun x => ?_)
      rw [two_items ha hb, SetsHold, SetsHold, ha.2.2.2.1, hb.2.2.2.1]
      simp [symbol, C42.Den, C42.Dens]
    | symDiff =>
      obtain ⟨a, b, ia, ib, rfl, ha, hb⟩ := two h.1
      refine group_item (by simp) ⟨symbol .symDiff, by rw [two_items ha hb]; simp⟩ (fun x => ?_)
      rw [two_items ha hb, SetsHold, SetsHold, ha.2.2.2.1, hb.2.2.2.1]
      simp [symbol, C42.Den, C42.Dens]

theorem noSym_wrap {is : List Item} (h : ¬ HasSym is) (c : Count) : ¬ HasSym (wrap c is) := by
  unfold wrap
  split
  · exact h
  · rintro ⟨d, hd⟩
    simp at hd

theorem noSym_seq {ms : List Matcher} (h : ∀ m ∈ ms, ¬ HasSym (canon m)) : ¬ HasSym (canons ms) := by
  induction ms with
  | nil => rintro ⟨d, hd⟩; simp [canons] at hd
  | cons m ms ih =>
    rintro ⟨d, hd⟩
    rw [canons] at hd
    rcases List.mem_append.1 hd with hd | hd
    · exact h m (by simp) ⟨d, hd⟩
    · exact ih (fun x hx => h x (by simp [hx])) ⟨d, hd⟩

theorem noSym_alts {ms : List Matcher} (h : ∀ m ∈ ms, ¬ HasSym (canon m)) : ¬ HasSym (canonAlts ms) := by
  induction ms with
  | nil => rintro ⟨d, hd⟩; simp [canonAlts] at hd
  | cons m ms ih =>
    cases ms with
    | nil => simpa [canonAlts] using h m (by simp)
    | cons n ms =>
      rintro ⟨d, hd⟩
      rw [canonAlts] at hd
      rcases List.mem_append.1 hd with hd | hd
      · exact h m (by simp) ⟨d, hd⟩
      · rcases List.mem_cons.1 hd with hd | hd
        · cases hd
        · exact ih (fun x hx => h x (by simp [hx])) ⟨d, hd⟩

/-- No symbol of classes is left outside of groups. -/
theorem noSym_canon : ∀ m, Plain m → ¬ HasSym (canon m) := by
  have one : ∀ {it : Item}, (∀ d, it ≠ .sym d) → ¬ HasSym [it] := by
    rintro it h ⟨d, hd⟩
    exact h d (List.mem_singleton.1 hd).symm
  refine matcher_ind ?_ ?_ ?_ ?_ ?_ ?_ ?_ ?_ ?_ ?_
  · exact fun _ => one (by simp)
  · exact fun _ => one (by simp)
  · exact fun _ => one (by simp)
  · exact fun c _ => one (by simp)
  · rintro _ c ⟨x, rfl⟩
    exact noSym_wrap (one (by simp)) c
  · exact fun ms ih h => one (by simp)
  · exact fun ms ih h => one (by simp)
  · exact fun ms c ih h => one (by simp)
  · intro k c h
    obtain ⟨it, hi⟩ := cls_item (v := ⟨fun _ => .error .indexError, ⟨fun _ _ => False, fun _ _ => False⟩⟩) k h
    rw [canon, hi.1]
    exact noSym_wrap (one hi.2.2.1) c
  · intro id nm br ms c ih h
    cases br with
    | some n => exact noSym_wrap (one (by simp)) c
    | none => exact noSym_wrap (noSym_seq (fun m hm => ih m hm (plainAll_iff.1 h m hm))) c

theorem meant_matcher {v : Vocabulary} {w : World} (hw : Uses v w) :
    ∀ m, Plain m → Meant v w (canon m) (Holds w m) := by
  refine matcher_ind ?_ ?_ ?_ ?_ ?_ ?_ ?_ ?_ ?_ ?_
  · exact fun _ => meant_one (by simp) (fun i j => by rw [ItemHolds, Holds])
  · exact fun _ => meant_one (by simp) (fun i j => by rw [ItemHolds, Holds])
  · exact fun _ => meant_one (by simp) (fun i j => by rw [ItemHolds, Holds])
  · exact fun c _ => meant_one (by simp) (fun i j => by rw [ItemHolds, Holds, countedText_iff])
  · rintro _ c ⟨x, rfl⟩
    have e : Holds w (.char [x] c) =
        Counted (fun i j => j = i + ([x] : Seq).length ∧ [x] <+: w.label.drop i) c := by
      funext i j
      rw [Holds]
    rw [e, canon]
    refine meant_wrap (meant_one (by simp) (fun i j => ?_)) (by rintro ⟨d, hd⟩; simp at hd) c
    rw [ItemHolds, One]
    have hp : [x] <+: w.label.drop i ↔ w.label[i]? = some x := by
      rw [← List.head?_drop]
      cases w.label.drop i with
      | nil => simp
      | cons y l => simp [eq_comm]
    rw [hp]
    constructor
    · rintro ⟨y, h1, h2, h3⟩
      have : y = x := Nat.le_antisymm h2.2 h2.1
      subst this
      exact ⟨h3, h1⟩
    · rintro ⟨h1, h2⟩
      exact ⟨x, h2, ⟨le_refl _, le_refl _⟩, h1⟩
  · intro ms ih h
    refine meant_one (by simp) (fun i j => ?_)
    have := meant_seq (fun m hm => ih m hm (plainAll_iff.1 h m hm))
    rw [ItemHolds, Holds]
    simp only [meant_whole this]
  · intro ms ih h
    refine meant_one (by simp) (fun i j => ?_)
    have := meant_seq (fun m hm => ih m hm (plainAll_iff.1 h m hm))
    rw [ItemHolds, Holds]
    simp only [meant_whole this]
  · intro ms c ih h
    refine meant_one (by simp) (fun i j => ?_)
    have := meant_alts h.1 (fun m hm => ih m hm (plainAll_iff.1 h.2 m hm))
    rw [ItemHolds, Holds, countedText_iff]
    have hs := noSym_alts (fun m hm => noSym_canon m (plainAll_iff.1 h.2 m hm))
    refine counted_congr (fun i j => ?_) c i j
    simp only [hs, false_and, not_false_eq_true, true_and, false_or]
    exact this i j
  · intro k c h
    have e : Holds w (.cls k c) =
        Counted (fun i j => ∃ x, w.label[i]? = some x ∧ w.cls k x ∧ j = i + 1) c := by
      funext i j
      rw [Holds]
    obtain ⟨it, h1, h2, h3, h4, h5⟩ := cls_item (v := v) k h
    rw [e, canon, h1]
    refine meant_wrap (meant_one h2 (fun i j => ?_)) ?_ c
    · rw [h5, One]
      simp only [h4, hw k]
    · rintro ⟨d, hd⟩
      exact h3 d (List.mem_singleton.1 hd).symm
  · intro id nm br ms c ih h
    cases br with
    | some n =>
      have e : Holds w (.rule id nm (some n) ms c) = Counted (w.rule n) c := by
        funext i j
        rw [Holds]
      rw [e, canon]
      refine meant_wrap (meant_one (by simp) (fun i j => ?_)) (by rintro ⟨d, hd⟩; simp at hd) c
      rw [ItemHolds]
      constructor
      · rintro ⟨n', h1, h2⟩
        rwa [String.ext (List.append_cancel_right h1)] at h2
      · exact fun h => ⟨n, rfl, h⟩
    | none =>
      have e : Holds w (.rule id nm none ms c) = Counted (HoldsSeq w ms) c := by
        funext i j
        rw [Holds]
      rw [e, canon]
      exact meant_wrap (meant_seq (fun m hm => ih m hm (plainAll_iff.1 h m hm)))
        (noSym_seq (fun m hm => noSym_canon m (plainAll_iff.1 h m hm))) c

/-- Items mean the same in worlds which differ in classes only. -/
theorem items_world {v : Vocabulary} {w w' : World} (hl : w.label = w'.label) (hr : w.rule = w'.rule)
    (ha : w.anchor = w'.anchor) : ∀ is, ItemsHold v w is = ItemsHold v w' is := by
  intro is
  refine Item.rec_1 (motive_1 := fun it => ItemHolds v w it = ItemHolds v w' it)
    (motive_2 := fun is => ItemsHold v w is = ItemsHold v w' is) ?_ ?_ ?_ ?_ ?_ ?_ ?_ ?_ ?_ ?_ ?_ ?_ ?_ ?_ ?_ is
  · funext i j; simp only [ItemHolds]
  · funext i j; simp only [ItemHolds, hl]
  · funext i j; simp only [ItemHolds, ha]
  · intro c; funext i j; simp only [ItemHolds, hl]
  · intro lo hi; funext i j; simp only [ItemHolds, One, hl]
  · intro k; funext i j; simp only [ItemHolds, One, hl]
  · intro k; funext i j; simp only [ItemHolds, hr]
  · funext i j; simp only [ItemHolds]
  · intro d; funext i j; simp only [ItemHolds]
  · intro is ih; funext i j; simp only [ItemHolds, One, hl]
  · intro is ih; funext i j; simp only [ItemHolds, ih]
  · intro is ih; funext i j; simp only [ItemHolds, ih]
  · intro is c ih; funext i j; simp only [ItemHolds, One, hl, ih]
  · funext K i j; simp only [ItemsHold]
  · intro it is h1 h2
    funext K i j
    by_cases hb : it = .bar
    · subst hb
      simp only [ItemsHold, h2]
    · rw [eq_iff_iff, itemsHold_cons hb, itemsHold_cons hb, h1, h2]

/-! ## The property -/

/-- **C129**, for plain rules: rules of the same text match the same. The rules may belong to different LGRs, whose
classes, tags and rules of the same name mean the same. -/
theorem same_text_partial {v : Vocabulary} {w w' : World} (hw : Uses v w) (hw' : Uses v w') (hl : w.label = w'.label)
    (hr : w.rule = w'.rule) (ha : w.anchor = w'.anchor) {m m' : Matcher} (h : Plain m) (h' : Plain m')
    (he : text m = text m') (i j : Nat) : Holds w m i j ↔ Holds w' m' i j := by
  rw [← meant_whole (meant_matcher hw m h), ← meant_whole (meant_matcher hw' m' h'), same_items h h' he,
    items_world hl hr ha]

/-- **C129**, for plain rules: the review finds the contents of two rules to be the same only if they match the
same labels. -/
theorem reported_partial {db db' : String → Except Err CpSet} {lk lk' : Lookups} {v : Vocabulary} {w w' : World}
    (hg : Agrees db lk w) (hg' : Agrees db' lk' w') (hw : Uses v w) (hw' : Uses v w') (hl : w.label = w'.label)
    (hr : w.rule = w'.rule) (ha : w.anchor = w'.anchor)
    (hlen : w.label.length ≤ labelMax) (hnl : ∀ c ∈ w.label, Re.newline c = false)
    (hlk : ∀ n m, dget lk.rules n = some m → AllCls (Inhabited w) m)
    (hlk' : ∀ n m, dget lk'.rules n = some m → AllCls (Inhabited w') m)
    {m m' : Matcher} (h : Plain m) (h' : Plain m') (hm : AllCls (Inhabited w) m) (hm' : AllCls (Inhabited w') m')
    (hf : AnchorFree lk m) (hf' : AnchorFree lk' m') {t t' : List Char} (ht : text m = .ok t) (ht' : text m' = .ok t')
    {ci cr cps : List Seq}
    (hc : (Review.compareWle (some (String.ofList t)) (some (String.ofList t')) ci cr cps).1 = .matched)
    {fuel fuel' : Nat} {b b' : Bool} (hb : Matcher.ruleMatches db lk fuel m w.label none 0 = .ok b)
    (hb' : Matcher.ruleMatches db' lk' fuel' m' w'.label none 0 = .ok b') : b = b' := by
  have he : t = t' := by
    unfold Review.compareWle at hc
    simp only at hc
    split at hc
    · rename_i h1
      have := congrArg String.toList h1.1
      simpa using this
    · cases hc
  have hs := same_text_partial hw hw' hl hr ha h h' (by rw [ht, ht', he])
  have h1 := rule_exact hg hlen hnl hlk hm hf (fun _ => rfl) hb
  have h2 := rule_exact hg' (hl ▸ hlen) (hl ▸ hnl) hlk' hm' hf' (fun _ => rfl) hb'
  have h3 : b = true ↔ b' = true := by
    rw [h1, h2, hl]
    simp only [hs]
  cases b <;> cases b' <;> simp_all

/-- The items of a range. -/
def pieceItems (p : Nat × Nat) : List Item :=
  if p.1 = p.2 then [.set p.1 p.1]
  else if p.2 = p.1 + 1 then [.set p.1 p.1, .set p.2 p.2]
  else [.set p.1 p.2]

/-- A code point is in one of the items. -/
def InItems (is : List Item) (x : Nat) : Prop := ∃ lo hi, Item.set lo hi ∈ is ∧ lo ≤ x ∧ x ≤ hi

theorem extends_set (lo hi : Nat) : Extends (setText lo hi) [.set lo hi] := by
  have : setText lo hi = 'U' :: (setText lo hi).tail := by
    unfold setText cpText
    split <;> rfl
  rw [this]
  refine extends_one (by decide) (by decide) (fun s hs => ?_)
  rw [← this]
  exact steps_set lo hi hs

theorem extends_words {ts : List (List Char)} {iss : List (List Item)} (h : List.Forall₂ Extends ts iss) :
    Extends (join ' ' ts) iss.flatten := by
  induction h with
  | nil => exact extends_nil
  | cons h hr ih =>
    cases hr with
    | nil => simpa [join] using h
    | cons h' hr =>
      have := extends_append h (extends_append extends_space ih)
      simpa [join] using this

theorem extends_pieces (rs : List (Nat × Nat)) :
    ∃ iss, List.Forall₂ Extends (rs.flatMap pieceText) iss ∧ iss.flatten = rs.flatMap pieceItems := by
  induction rs with
  | nil => exact ⟨[], .nil, rfl⟩
  | cons p rs ih =>
    obtain ⟨iss, h1, h2⟩ := ih
    have e : ∀ n, Extends (cpText n) [.set n n] := by
      intro n
      have := extends_set n n
      rwa [setText, if_pos rfl] at this
    unfold List.flatMap at h1 h2 ⊢
    simp only [List.map_cons, List.flatten_cons]
    rw [← h2]
    unfold pieceText pieceItems
    split
    · exact ⟨_, .cons (e p.1) h1, rfl⟩
    · split
      · exact ⟨_, .cons (e p.1) (.cons (e p.2) h1), rfl⟩
      · refine ⟨_, .cons (a := cpText p.1 ++ '-' :: cpText p.2) (b := [.set p.1 p.2]) ?_ h1, rfl⟩
        have := extends_set p.1 p.2
        rwa [setText, if_neg (by assumption)] at this

theorem in_pieces {rs : List (Nat × Nat)} (x : Nat) (hr : ∀ r ∈ rs, r.1 ≤ r.2) :
    InItems (rs.flatMap pieceItems) x ↔ C05.Covers rs x := by
  unfold InItems C05.Covers
  constructor
  · rintro ⟨lo, hi, h1, h2, h3⟩
    obtain ⟨r, h4, h5⟩ := List.mem_flatMap.1 h1
    refine ⟨r, h4, ?_⟩
    unfold pieceItems at h5
    split at h5
    · simp only [List.mem_singleton, Item.set.injEq] at h5
      omega
    · split at h5
      · simp only [List.mem_cons, List.not_mem_nil, or_false, Item.set.injEq] at h5
        omega
      · simp only [List.mem_singleton, Item.set.injEq] at h5
        omega
  · rintro ⟨r, h1, h2, h3⟩
    have h4 := hr r h1
    by_cases e1 : r.1 = r.2
    · exact ⟨r.1, r.1, List.mem_flatMap.2 ⟨r, h1, by simp [pieceItems, e1]⟩, by omega, by omega⟩
    · by_cases e2 : r.2 = r.1 + 1
      · by_cases e3 : x = r.1
        · exact ⟨r.1, r.1, List.mem_flatMap.2 ⟨r, h1, by simp [pieceItems, e2]⟩, by omega, by omega⟩
        · exact ⟨r.2, r.2, List.mem_flatMap.2 ⟨r, h1, by simp [pieceItems, e2]⟩, by omega, by omega⟩
      · exact ⟨r.1, r.2, List.mem_flatMap.2 ⟨r, h1, by simp [pieceItems, e1, e2]⟩, h2, h3⟩

/-- The text of a set of code points determines the set. -/
theorem collapsed_exact {s s' : List Nat} (h : s.Nodup) (h' : s'.Nodup) {t : List Char}
    (ht : formatCollapsed s = .ok t) (ht' : formatCollapsed s' = .ok t) (x : Nat) : x ∈ s ↔ x ∈ s' := by
  have key : ∀ {s : List Nat}, s.Nodup → formatCollapsed s = .ok t →
      ∃ is, Extends t is ∧ (∀ x, InItems is x ↔ x ∈ s) := by
    intro s h ht
    have hne : s ≠ [] := by
      rintro rfl
      cases ht
    obtain ⟨rs, h1, h2, h3⟩ := C05.collapse_exact s h hne
    unfold formatCollapsed at ht
    rw [h1] at ht
    cases ht
    obtain ⟨iss, h4, h5⟩ := extends_pieces rs
    refine ⟨_, extends_words h4, fun x => ?_⟩
    rw [h5, in_pieces x h2.1, h3]
  obtain ⟨is, h1, h2⟩ := key h ht
  obtain ⟨is', h3, h4⟩ := key h' ht'
  have := reads_unique (h1 [] _ reads_nil) (h3 [] _ reads_nil)
  simp only [List.append_nil, Prod.mk.injEq, and_true] at this
  rw [← h2, ← h4, this]

example : formatCollapsed [3, 1, 2, 5, 6] = .ok "U+0001-U+0003 U+0005 U+0006".toList := by decide +kernel

/-- The name and the identity of a rule play no role. -/
theorem same_content (id id' : Nat) (nm nm' br : Option String) (ms : List Matcher) (c : Count) :
    text (.rule id nm br ms c) = text (.rule id' nm' br ms c) := by
  simp only [text]

/-- A rule with look-behind, a choice and a count: hypotheses of the theorems. -/
def ex0 : Matcher :=
  .rule 0 (some "r") none
    [.behind [.cls (.base { byRef := some "vowel" }) .none], .anchor,
      .choice [.char [0x61] .none, .rule 1 none none [.any .none, .fin] .none] (.range 1 2)] .none

example : Plain ex0 ∧ text ex0 = .ok "([:class-ref-vowel:])← ⚓ (U+0061|(any) (end)){1,2}".toList := by
  constructor
  · simp [ex0, Plain, PlainAll, Named, C42.Every]
  · decide +kernel

/-- The same with the count written by nesting: another matcher of the same text. -/
example : ∃ m, m ≠ ex0 ∧ Plain m ∧ text m = text ex0 := by
  refine ⟨.rule 0 (some "r") none
    [.rule 2 none none [.behind [.cls (.base { byRef := some "vowel" }) .none], .anchor] .none,
      .choice [.char [0x61] .none, .rule 1 none none [.any .none, .fin] .none] (.range 1 2)] .none, ?_, ?_, ?_⟩
  · simp [ex0]
  · simp [Plain, PlainAll, Named, C42.Every]
  · decide +kernel

/-- A class made of others. -/
def ex1 : Cls :=
  .comb none .union [.base { byRef := some "a" }, .comb (some "x") .complement [.base { fromTag := some "t" }],
    .comb none .difference [.base { codepoints := [3, 1, 2] }, .base { property := some "gc:Nd" }]]

example : Plain (.cls ex1 .none) ∧ text (.cls ex1 .none) =
    .ok "([:class-ref-a:]∪^{[:class tag=t:]}∪(U+0001-U+0003\\[:class property:gc=Nd:]))".toList := by
  constructor
  · simp only [ex1, Plain, C42.Every, C42.EveryL, C42.Arity, List.length_cons, List.length_nil]
    refine ⟨by omega, .inl ?_, ⟨trivial, .inl ?_, trivial⟩, ⟨trivial, .inr ?_, .inl ?_, trivial⟩, trivial⟩
    · simp [Named]
    · simp [Named]
    · refine ⟨rfl, rfl, rfl, 1, 3, .inr (by omega), fun x => ?_⟩
      simp only [List.mem_cons, List.not_mem_nil, or_false]
      omega
    · exact ⟨"gc".toList, "Nd".toList, by decide +kernel⟩
  · decide +kernel

/-! ## Violations -/

/-- **C129** is violated: literal sequences with the same code points in another order have the same text. -/
theorem order_wrong {s t : Seq} (h : s.Perm t) (c : Count) : text (.char s c) = text (.char t c) := by
  simp only [text, formatCollapsed, C05.collapse_order_independent s t h]

/-- A world in which nothing is named. -/
def w0 (label : Seq) : World :=
  { label := label, cls := fun k x => match k with
      | .base b => x ∈ b.codepoints
      | _ => False
    rule := fun _ _ _ => False, anchor := fun _ _ => False }

/-- The rules `ab` and `ba` are reported as the same, and match different labels. -/
theorem order_reported_wrong : ∃ t, text (.char [0x61, 0x62] .none) = .ok t ∧ text (.char [0x62, 0x61] .none) = .ok t ∧
    (Review.compareWle (some (String.ofList t)) (some (String.ofList t)) [] [] []).1 = .matched ∧
    Holds (w0 [0x61, 0x62]) (.char [0x61, 0x62] .none) 0 2 ∧
    ∀ i j, ¬ Holds (w0 [0x61, 0x62]) (.char [0x62, 0x61] .none) i j := by
  refine ⟨"U+0061 U+0062".toList, by decide +kernel, by decide +kernel, by decide +kernel, ?_, ?_⟩
  · simp [Holds, Counted, w0]
  · intro i j h
    simp only [Holds, Counted, w0] at h
    match i, h.2 with
    | 0, h => simp at h
    | 1, h => simp at h
    | n + 2, h => simp at h

/-- **C129** is violated: a class of two code points has the text of the sequence of both. -/
theorem class_wrong : ∃ t, text (.cls (.base { codepoints := [0x61, 0x63] }) .none) = .ok t ∧
    text (.char [0x61, 0x63] .none) = .ok t ∧
    Holds (w0 [0x61]) (.cls (.base { codepoints := [0x61, 0x63] }) .none) 0 1 ∧
    ∀ i j, ¬ Holds (w0 [0x61]) (.char [0x61, 0x63] .none) i j := by
  refine ⟨"U+0061 U+0063".toList, by decide +kernel, by decide +kernel, ?_, ?_⟩
  · simp [Holds, Counted, w0]
  · intro i j h
    simp only [Holds, Counted, w0] at h
    match i, h.2 with
    | 0, h => simp at h
    | n + 1, h => simp at h

/-- **C129** is violated: a rule with a class without code points has no text, and the report raises an exception. -/
theorem empty_wrong (nm : Option String) (c : Count) : text (.cls (.base { name := nm }) c) = .error .indexError := rfl

end Lgr.Props.C129

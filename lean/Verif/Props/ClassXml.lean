import Verif.Props.RulesXmlWrong
import Verif.Props.TableSyntax

/-!
# C102: a class element lists exactly the code points it spells
-/

namespace Lgr.Props.C102
open Lgr Xml Text RulesXml TableSyntax

/-! ## What a text spells -/

/-- The words of a text, separated by white space. -/
inductive Words : List Char → List (List Char) → Prop where
  | nil (sp : List Char) : (∀ c ∈ sp, isSpace c = true) → Words sp []
  | cons (sp w rest : List Char) (ws : List (List Char)) : (∀ c ∈ sp, isSpace c = true) → w ≠ [] →
      (∀ c ∈ w, isSpace c = false) → (∀ c, rest.head? = some c → isSpace c = true) → Words rest ws →
      Words (sp ++ w ++ rest) (w :: ws)

/-- Hexadecimal digits with this value. -/
def Hex (w : List Char) (n : Nat) : Prop :=
  w ≠ [] ∧ ∃ ns, List.Forall₂ (fun c d => hexVal c = some d) w ns ∧ n = valueOf 16 ns

/-- A word is a code point or a range, and lists the code points of `S`. -/
def Lists (w : List Char) (S : Nat → Prop) : Prop :=
  (∃ n, Hex w n ∧ ∀ x, S x ↔ x = n) ∨
  ∃ a b f l, w = a ++ '-' :: b ∧ Hex a f ∧ Hex b l ∧ ∀ x, S x ↔ f ≤ x ∧ x ≤ l

/-! ## Words -/

theorem go_spaces (sp s : List Char) (h : ∀ c ∈ sp, isSpace c = true) :
    splitWs.go [] (sp ++ s) = splitWs.go [] s := by
  induction sp with
  | nil => rfl
  | cons c sp ih =>
    rw [List.cons_append, splitWs.go, if_pos (h c (by simp)), if_pos rfl, ih (fun x hx => h x (by simp [hx]))]

theorem words_split {s : List Char} {ws : List (List Char)} (h : Words s ws) : splitWs s = ws := by
  unfold splitWs
  induction h with
  | nil sp h =>
    have := go_spaces sp [] h
    rw [List.append_nil] at this
    rw [this]; rfl
  | cons sp w rest ws h1 h2 h3 h4 _ ih =>
    rw [List.append_assoc, go_spaces _ _ h1, splitWs_go_word w rest [] h3, List.append_nil]
    cases rest with
    | nil =>
      rw [splitWs.go, if_neg (by simpa using h2), List.reverse_reverse]
      have : ws = [] := by rw [← ih]; rfl
      rw [this]
    | cons c rest =>
      rw [splitWs.go, if_pos (h4 c rfl), if_neg (by simpa using h2), List.reverse_reverse]
      rw [splitWs.go, if_pos (h4 c rfl), if_pos rfl] at ih
      rw [ih]

theorem words_exist (s : List Char) : ∃ ws, Words s ws := by
  induction hn : s.length using Nat.strong_induction_on generalizing s with
  | _ n ih =>
    obtain ⟨sp, h1, h2, h3⟩ := dropWhile_split isSpace s
    cases hr : s.dropWhile isSpace with
    | nil =>
      rw [hr, List.append_nil] at h1
      exact ⟨[], .nil s (by rw [h1]; exact h2)⟩
    | cons c r =>
      rw [hr] at h1 h3
      have hc := h3 c rfl
      obtain ⟨w, g1, g2, g3⟩ := dropWhile_split (fun c => !isSpace c) (c :: r)
      have hw : w ≠ [] := by
        rintro rfl
        rw [List.nil_append] at g1
        have := g3 c (by rw [← g1]; rfl)
        simp [hc] at this
      have hlen : ((c :: r).dropWhile (fun c => !isSpace c)).length < n := by
        rw [← hn, h1, List.length_append]
        have := congrArg List.length g1
        rw [List.length_append] at this
        have hw' : 0 < w.length := List.length_pos_of_ne_nil hw
        omega
      obtain ⟨ws, hws⟩ := ih _ hlen _ rfl
      refine ⟨w :: ws, ?_⟩
      have e : s = sp ++ w ++ (c :: r).dropWhile (fun c => !isSpace c) := by
        rw [List.append_assoc, ← g1]; exact h1
      rw [e]
      exact .cons sp w _ ws h2 hw (fun x hx => by simpa using g2 x hx) (fun x hx => by simpa using g3 x hx) hws

theorem go_trailing (b : List Char) (hb : ∀ c ∈ b, isSpace c = true) : ∀ (s cur : List Char),
    splitWs.go cur (s ++ b) = splitWs.go cur s := by
  intro s
  induction s with
  | nil =>
    intro cur
    cases b with
    | nil => rfl
    | cons c b =>
      have := go_spaces b [] (fun x hx => hb x (by simp [hx]))
      rw [List.append_nil] at this
      rw [List.nil_append, splitWs.go, splitWs.go, if_pos (hb c (by simp)), this]
      rfl
  | cons c s ih =>
    intro cur
    rw [List.cons_append, splitWs.go, splitWs.go]
    simp only [ih]

theorem split_strip (s : List Char) : splitWs (strip s) = splitWs s := by
  obtain ⟨⟨a, b, h1, h2, h3⟩, -⟩ := trimmed_iff.2 (rfl : strip s = strip s)
  unfold splitWs
  conv_rhs => rw [h1]
  rw [go_trailing b h3, go_spaces _ _ h2]

/-! ## One word -/

theorem hex_iff {w : List Char} {n : Nat} : parseHex w = some n ↔ Hex w n := by
  by_cases h : w = []
  · subst h
    exact ⟨fun h => (by cases h), fun h => absurd rfl h.1⟩
  · rw [parseHex_iff h]
    exact ⟨fun h' => ⟨h, h'⟩, fun h' => h'.2⟩

theorem hex_nodash {w : List Char} {n : Nat} (h : Hex w n) : '-' ∉ w := by
  intro hm
  obtain ⟨-, ns, hf, -⟩ := h
  induction hf with
  | nil => cases hm
  | cons h1 _ ih =>
    rcases List.mem_cons.1 hm with rfl | hm
    · have : hexVal '-' = none := by decide
      rw [this] at h1; cases h1
    · exact ih hm

theorem split_dash {a b : List Char} (ha : '-' ∉ a) (hb : '-' ∉ b) : splitOn '-' (a ++ '-' :: b) = [a, b] := by
  have := splitOn_join '-' [a, b] (by simp) (by
    intro w hw c hc
    rcases List.mem_cons.1 hw with rfl | hw
    · rintro rfl; exact ha hc
    · rcases List.mem_cons.1 hw with rfl | hw
      · rintro rfl; exact hb hc
      · cases hw)
  simpa [join] using this

theorem go_pieces (d : Char) : ∀ (s cur : List Char), join d (splitOn.go d cur s) = cur.reverse ++ s := by
  intro s
  induction s with
  | nil => intro cur; simp [splitOn.go, join]
  | cons c s ih =>
    intro cur
    rw [splitOn.go]
    split
    · rename_i h
      subst h
      have := ih []
      cases hg : splitOn.go c [] s with
      | nil => exact absurd hg (go_ne c [] s)
      | cons y l =>
        rw [hg] at this
        rw [join, this]
        simp
    · rw [ih]; simp

/-- A word which is read lists the code points read, and a word which lists code points is read. -/
theorem token_iff {w : List Char} {S : Nat → Prop} :
    (∃ cps, tokenCps w = .ok cps ∧ ∀ x, x ∈ cps ↔ S x) ↔ Lists w S := by
  constructor
  · rintro ⟨cps, h, hS⟩
    unfold tokenCps at h
    split at h
    · split at h
      · rename_i a b hs
        split at h
        · rename_i f l hf hl
          cases h
          refine .inr ⟨a, b, f, l, ?_, hex_iff.1 hf, hex_iff.1 hl, fun x => ?_⟩
          · have := go_pieces '-' w []
            rw [show splitOn.go '-' [] w = [a, b] from hs] at this
            simpa [join] using this.symm
          · rw [← hS, List.mem_range'_1]
            omega
        · cases h
      · cases h
    · split at h
      · rename_i n hn
        cases h
        exact .inl ⟨n, hex_iff.1 hn, fun x => by rw [← hS]; simp⟩
      · cases h
  · rintro (⟨n, hn, hS⟩ | ⟨a, b, f, l, rfl, ha, hb, hS⟩)
    · refine ⟨[n], ?_, fun x => by rw [hS]; simp⟩
      rw [tokenCps, if_neg (hex_nodash hn), hex_iff.2 hn]
    · refine ⟨List.range' f (l + 1 - f), ?_, fun x => ?_⟩
      · rw [tokenCps, if_pos (by simp), split_dash (hex_nodash ha) (hex_nodash hb)]
        simp only [hex_iff.2 ha, hex_iff.2 hb]
      · rw [hS, List.mem_range'_1]; omega

theorem token_fail {w : List Char} (h : ¬ ∃ S, Lists w S) : tokenCps w = .error .valueError := by
  cases hc : tokenCps w with
  | ok cps => exact absurd ⟨fun x => x ∈ cps, token_iff.1 ⟨cps, hc, fun _ => Iff.rfl⟩⟩ h
  | error e =>
    unfold tokenCps at hc
    split at hc
    · split at hc
      · split at hc
        · cases hc
        · cases hc; rfl
      · cases hc; rfl
    · split at hc
      · cases hc
      · cases hc; rfl

theorem text_ok {ws : List (List Char)} (h : ∀ w ∈ ws, ∃ S, Lists w S) :
    ∃ cps, textCps ws = .ok cps ∧ ∀ x, x ∈ cps ↔ ∃ w ∈ ws, ∃ S, Lists w S ∧ S x := by
  induction ws with
  | nil => exact ⟨[], rfl, by simp⟩
  | cons w ws ih =>
    obtain ⟨S, hS⟩ := h w (by simp)
    obtain ⟨a, ha, hax⟩ := token_iff.2 hS
    obtain ⟨b, hb, hbx⟩ := ih (fun v hv => h v (by simp [hv]))
    refine ⟨a ++ b, by rw [textCps, ha, hb], fun x => ?_⟩
    rw [List.mem_append, hbx]
    constructor
    · rintro (hx | ⟨v, hv, T, hT⟩)
      · exact ⟨w, by simp, S, hS, (hax x).1 hx⟩
      · exact ⟨v, by simp [hv], T, hT⟩
    · rintro ⟨v, hv, T, hT, hx⟩
      rcases List.mem_cons.1 hv with rfl | hv
      · obtain ⟨a', ha', hax'⟩ := token_iff.2 hT
        rw [ha] at ha'
        cases ha'
        exact .inl ((hax' x).2 hx)
      · exact .inr ⟨v, hv, T, hT, hx⟩

theorem text_fail {ws : List (List Char)} (h : ∃ w ∈ ws, ¬ ∃ S, Lists w S) :
    textCps ws = .error .valueError := by
  induction ws with
  | nil => simp at h
  | cons w ws ih =>
    rw [textCps]
    by_cases hw : ∃ S, Lists w S
    · obtain ⟨S, hS⟩ := hw
      obtain ⟨a, ha, -⟩ := token_iff.2 hS
      rw [ha]
      simp only
      obtain ⟨v, hv, hn⟩ := h
      rw [ih ⟨v, ?_, hn⟩]
      rcases List.mem_cons.1 hv with rfl | hv
      · exact absurd ⟨S, hS⟩ hn
      · exact hv
    · rw [token_fail hw]

/-! ## Elements -/

/-- `<class>` with these attributes but no reference. -/
def baseOf (attrs : XAttrs) : BaseCls :=
  { name := dget attrs "name", fromTag := dget attrs "from-tag", property := dget attrs "property",
    byRef := dget attrs "by-ref" }

theorem mkBase_noref {attrs : XAttrs} (h : dget attrs "by-ref" = none) :
    Cls.mkBase (baseOf attrs) (getList attrs "ref") = .ok (baseOf attrs) := by
  simp [Cls.mkBase, baseOf, h]

/-- **C102** `<class>text</class>`, for every text which is not empty and not a reference: if every word of the text
is a hexadecimal code point or a range of them, the class has exactly the code points listed, however the
words are spaced, and if one is not, `ValueError` is raised. -/
theorem class_text {attrs : XAttrs} {t : String} {ws : List (List Char)} (ht : t ≠ "")
    (hr : dget attrs "by-ref" = none) (hw : Words t.toList ws) :
    ((∀ w ∈ ws, ∃ S, Lists w S) → ∃ b, parseClass (.mk "class" attrs (some t) []) = .ok (.base b) ∧
      { b with codepoints := [] } = baseOf attrs ∧
      ∀ x, x ∈ b.codepoints ↔ ∃ w ∈ ws, ∃ S, Lists w S ∧ S x) ∧
    ((∃ w ∈ ws, ¬ ∃ S, Lists w S) → parseClass (.mk "class" attrs (some t) []) = .error .valueError) := by
  have hsp : splitWs (strip t.toList) = ws := by rw [split_strip, words_split hw]
  have htr : truthy (some t) = true := by simp [truthy, ht]
  have key : parseClass (.mk "class" attrs (some t) []) =
      match addCps (baseOf attrs) (.mk "class" attrs (some t) []) with
      | .error e => .error e
      | .ok b => .ok (.base b) := by
    have := mkBase_noref hr
    unfold baseOf at this
    rw [parseClass, if_pos rfl, this]
    simp only [List.isEmpty_nil, htr, and_self, if_true, addAll]
    rfl
  have hcps : cpsOf (.mk "class" attrs (some t) []) = (textCps ws).map some := by
    simp [cpsOf, Node.tag, Node.text, hsp]
  constructor
  · intro h
    obtain ⟨cps, h1, h2⟩ := text_ok h
    refine ⟨{ baseOf attrs with codepoints := cps }, ?_, rfl, h2⟩
    rw [key, addCps, hcps, h1]
    simp [Except.map, baseOf, hr]
  · intro h
    rw [key, addCps, hcps, text_fail h]
    rfl

/-- What a child of a class lists: the code points of the `cp` of a `char`, those from `first-cp` to `last-cp` of a
`range`. -/
inductive Child : Node → (Nat → Prop) → Prop where
  | char (n : Node) (cp : String) (ws : List (List Char)) (cps : List Nat) : n.tag = "char" →
      dget n.attrs "cp" = some cp → Words cp.toList ws → List.Forall₂ Hex ws cps → Child n (fun x => x ∈ cps)
  | range (n : Node) (a b : String) (f l : Nat) : n.tag = "range" → dget n.attrs "first-cp" = some a →
      dget n.attrs "last-cp" = some b → Hex a.toList f → Hex b.toList l → Child n (fun x => f ≤ x ∧ x ≤ l)

theorem mapM_hex {ws : List (List Char)} {cps : List Nat} (h : List.Forall₂ Hex ws cps) :
    ws.mapM parseHex = some cps := by
  induction h with
  | nil => rfl
  | cons h1 _ ih => rw [List.mapM_cons, hex_iff.2 h1, ih]; rfl

theorem child_cps {n : Node} {S : Nat → Prop} (h : Child n S) :
    ∃ cps, cpsOf n = .ok (some cps) ∧ ∀ x, x ∈ cps ↔ S x := by
  cases h with
  | char cp ws cps ht hc hw hf =>
    refine ⟨cps, ?_, fun x => Iff.rfl⟩
    rw [cpsOf, if_pos ht, getCp, hc]
    simp only [parseCpAttr, words_split hw, mapM_hex hf]
    rfl
  | range a b f l ht ha hb hf hl =>
    refine ⟨List.range' f (l + 1 - f), ?_, fun x => ?_⟩
    · rw [cpsOf, if_neg (by rw [ht]; decide), if_pos ht]
      simp [getHex, ha, hb, hex_iff.2 hf, hex_iff.2 hl]
    · rw [List.mem_range'_1]; omega

theorem addAll_ok : ∀ (ns : List Node) (b : BaseCls), b.byRef = none → (∀ n ∈ ns, ∃ S, Child n S) →
    ∃ b', addAll b ns = .ok b' ∧ { b' with codepoints := [] } = { b with codepoints := [] } ∧
      ∀ x, x ∈ b'.codepoints ↔ x ∈ b.codepoints ∨ ∃ n ∈ ns, ∃ S, Child n S ∧ S x := by
  intro ns
  induction ns with
  | nil => intro b _ _; exact ⟨b, rfl, rfl, by simp⟩
  | cons n ns ih =>
    intro b hb h
    obtain ⟨S, hS⟩ := h n (by simp)
    obtain ⟨cps, h1, h2⟩ := child_cps hS
    have hadd : addCps b n = .ok { b with codepoints := b.codepoints ++ cps } := by
      rw [addCps, h1]; simp [hb]
    obtain ⟨b', g1, g2, g3⟩ := ih { b with codepoints := b.codepoints ++ cps } hb
      (fun m hm => h m (by simp [hm]))
    refine ⟨b', by rw [addAll, hadd]; exact g1, g2, fun x => ?_⟩
    rw [g3, List.mem_append]
    constructor
    · rintro ((hx | hx) | ⟨m, hm, T, hT⟩)
      · exact .inl hx
      · exact .inr ⟨n, by simp, S, hS, (h2 x).1 hx⟩
      · exact .inr ⟨m, by simp [hm], T, hT⟩
    · rintro (hx | ⟨m, hm, T, hT, hx⟩)
      · exact .inl (.inl hx)
      · rcases List.mem_cons.1 hm with rfl | hm
        · obtain ⟨cps', h1', h2'⟩ := child_cps hT
          rw [h1] at h1'
          cases h1'
          exact .inl (.inr ((h2' x).2 hx))
        · exact .inr ⟨m, hm, T, hT, hx⟩

/-- **C102** `<class>` with elements `char` and `range`, not a reference: the class has exactly the code points
these list, whatever the text between them. -/
theorem class_children {attrs : XAttrs} {t : Option String} {ns : List Node} (hne : ns ≠ [])
    (hr : dget attrs "by-ref" = none) (h : ∀ n ∈ ns, ∃ S, Child n S) :
    ∃ b, parseClass (.mk "class" attrs t ns) = .ok (.base b) ∧ { b with codepoints := [] } = baseOf attrs ∧
      ∀ x, x ∈ b.codepoints ↔ ∃ n ∈ ns, ∃ S, Child n S ∧ S x := by
  obtain ⟨b, h1, h2, h3⟩ := addAll_ok ns (baseOf attrs) (by simp [baseOf, hr]) h
  refine ⟨b, ?_, h2, fun x => by rw [h3]; simp [baseOf]⟩
  have hm := mkBase_noref hr
  unfold baseOf at hm h1
  rw [parseClass, if_pos rfl, hm]
  simp only [List.isEmpty_iff, hne, false_and, if_false]
  rw [h1]

/-- **C102** A reference to a class which lists code points itself is rejected. -/
theorem class_reference {attrs : XAttrs} {t : Option String} {ns : List Node} {r : String}
    (hr : dget attrs "by-ref" = some r) (hs : (∃ S, ∃ n r, ns = n :: r ∧ Child n S) ∨ (dget attrs "name").isSome) :
    parseClass (.mk "class" attrs t ns) = .error (.format "BY_REF_AND_OTHER") := by
  rw [parseClass, if_pos rfl]
  change (match Cls.mkBase (baseOf attrs) (getList attrs "ref") with
    | .error e => _
    | .ok b => _) = _
  cases hm : Cls.mkBase (baseOf attrs) (getList attrs "ref") with
  | error e =>
    unfold Cls.mkBase at hm
    split at hm
    · split at hm
      · cases hm; rfl
      · cases hm
    · cases hm
  | ok b =>
    unfold Cls.mkBase at hm
    simp only [baseOf, hr, Option.isSome_some, if_true] at hm
    split at hm
    · cases hm
    · rename_i hn
      cases hm
      rcases hs with ⟨S, n, ns, rfl, hS⟩ | hs
      · obtain ⟨cps, hc, -⟩ := child_cps hS
        simp [addAll, addCps, hc]
      · exact absurd (.inl hs) hn

/-! ## Examples -/

example : Words "\n 61-63\tE9 ".toList ["61-63".toList, "E9".toList] ∧
    (∀ w ∈ ["61-63".toList, "E9".toList], ∃ S, Lists w S) ∧ ¬ ∃ S, Lists "61_63".toList S := by
  refine ⟨?_, ?_, ?_⟩
  · exact .cons ['\n', ' '] "61-63".toList ['\t', 'E', '9', ' '] _ (by decide) (by decide) (by decide) (by decide)
      (.cons ['\t'] "E9".toList [' '] _ (by decide) (by decide) (by decide) (by decide) (.nil [' '] (by decide)))
  · intro w hw
    rcases List.mem_cons.1 hw with rfl | hw
    · exact ⟨_, token_iff.1 ⟨[0x61, 0x62, 0x63], rfl, fun x => Iff.rfl⟩⟩
    · rw [List.mem_singleton] at hw
      subst hw
      exact ⟨_, token_iff.1 ⟨[0xE9], rfl, fun x => Iff.rfl⟩⟩
  · rintro ⟨S, hS⟩
    obtain ⟨cps, h, -⟩ := token_iff.2 hS
    have : tokenCps "61_63".toList = .error .valueError := by decide
    rw [this] at h; cases h

example : ∃ S, Child (.mk "range" [("first-cp", "0030"), ("last-cp", "0039")] none []) S :=
  ⟨_, .range _ "0030" "0039" 0x30 0x39 rfl rfl rfl (hex_iff.1 rfl) (hex_iff.1 rfl)⟩

end Lgr.Props.C102

import Verif.Props.MergeDisp

/-!
# C117, C118: examples and violations
-/

namespace Lgr.Props.C117
open Lgr Compare MergeSet RulesXml MergeXml C101 C102 C103 C42 C63

/-! ## When the new names of rules are not ambiguous -/

theorem lcm_name {s : String} {r : String} (h : ruleName s r = "Common-" ++ lcm)
    (hs : ¬ "Common-".toList <+: (s ++ "-").toList) : r = lcm := by
  by_contra hr
  rw [ruleName_eq, if_neg hr] at h
  have h1 : (s ++ "-").toList ++ r.toList = "Common-".toList ++ lcm.toList := by
    have := congrArg String.toList h
    simpa only [String.toList_append] using this
  rw [List.append_eq_append_iff] at h1
  rcases h1 with ⟨a, e1, e2⟩ | ⟨a, e1, e2⟩
  · have h2 : s.toList ++ '-' :: a = "Common".toList ++ ['-'] := by
      have : (s ++ "-").toList = s.toList ++ ['-'] := by simp
      rw [this] at e1
      simpa using e1.symm
    cases a with
    | nil =>
      exact hr (String.toList_inj.1 (by simpa using e2))
    | cons x a =>
      have : '-' ∈ "Common".toList := by
        have h3 := congrArg List.dropLast h2
        rw [List.dropLast_concat] at h3
        rw [← h3, List.dropLast_append_of_ne_nil (by simp), List.dropLast_cons_of_ne_nil (by simp)]
        simp
      exact absurd this (by decide)
  · exact hs ⟨a, e1.symm⟩

/-- If no script is the beginning of another one, nor of the name of the common rule, and no rule had to be asked for
by the merging of the code points, then names are not ambiguous. -/
theorem unique_of {ds : List Doc} {d : Doc} (hd : d ∈ ds)
    (apart : ∀ d ∈ ds, ∀ d' ∈ ds, (d.script ++ "-").toList <+: (d'.script ++ "-").toList → d = d')
    (common : ∀ d ∈ ds, ¬ "Common-".toList <+: (d.script ++ "-").toList)
    (hasked : ∀ d ∈ ds, d.asked = [])
    (hlcm : ∀ d ∈ ds, ∀ d' ∈ ds, ∀ e ∈ d.es, ∀ e' ∈ d'.es, isRule e = true → isRule e' = true → nameOf e = lcm →
      nameOf e' = lcm → Plain e ∧ e.children = e'.children)
    (hplain : ∀ d ∈ ds, ∀ e ∈ d.es, isRule e = true → nameOf e = lcm → Plain e) :
    ∀ d0 ∈ ds, ∀ e0 ∈ d0.es, isRule e0 = true → ∀ s0, Under d0 e0 s0 →
    ∀ r, ruleName s0 (nameOf e0) = ruleName d.script r →
      (s0 = d.script ∧ nameOf e0 = r ∧ e0 ∈ d.es) ∨
      (r = lcm ∧ Plain e0 ∧ ∀ e ∈ d.es, isRule e = true → nameOf e = lcm → Plain e ∧ e.children = e0.children) := by
  intro d0 hd0 e0 he0 hr0 s0 hu r h
  have hs0 : s0 = d0.script := by
    rcases hu with h | h
    · exact h
    · rw [hasked d0 hd0] at h; cases h
  subst hs0
  by_cases h1 : nameOf e0 = lcm
  · have : r = lcm := lcm_name (by rw [← h, ruleName_eq, if_pos h1]) (common d hd)
    exact .inr ⟨this, hplain d0 hd0 e0 he0 hr0 h1, fun e he hr hn => hlcm d hd d0 hd0 e he e0 he0 hr hr0 hn h1⟩
  · have hr : r ≠ lcm := by
      rintro rfl
      exact h1 (lcm_name (by rw [h, ruleName_eq, if_pos rfl]) (common d0 hd0))
    rw [ruleName_eq, ruleName_eq, if_neg h1, if_neg hr] at h
    have h2 : (d0.script ++ "-").toList ++ (nameOf e0).toList = (d.script ++ "-").toList ++ r.toList := by
      have := congrArg String.toList h
      simpa only [String.toList_append] using this
    have hdd : d0 = d := by
      have := h2
      rw [List.append_eq_append_iff] at this
      rcases this with ⟨a, e1, -⟩ | ⟨a, e1, -⟩
      · exact apart d0 hd0 d hd ⟨a, e1.symm⟩
      · exact (apart d hd d0 hd0 ⟨a, e1.symm⟩).symm
    subst hdd
    exact .inl ⟨rfl, String.toList_inj.1 (List.append_cancel_left h2), he0⟩

/-! ## An example: two LGRs -/

def dLatn : Doc := { script := "Latn", es := C103.demo }

def dCyrl : Doc :=
  { script := "und-Cyrl"
    es := [.mk "class" [("name", "vowel")] (some "0430") [],
      .mk "rule" [("name", "leading-combining-mark"), ("ref", "1")] none
        [.mk "start" [] none [], .mk "char" [("cp", "0300")] none []],
      .mk "rule" [("name", "starts")] none [.mk "start" [] none [], .mk "class" [("by-ref", "vowel")] none []],
      .mk "action" [("disp", "invalid"), ("match", "leading-combining-mark")] none [],
      .mk "action" [("disp", "valid")] none []]
    map := [("1", "7")] }

def both : List Node :=
  [.mk "class" [("name", "Latn-vowel")] (some "0061 0065-0066") [],
   .mk "class" [("name", "und-Cyrl-vowel")] (some "0430") [],
   .mk "rule" [("name", "Latn-vowels-b")] none
     [.mk "start" [] none [], .mk "class" [("by-ref", "Latn-vowel"), ("count", "1+")] none [],
      .mk "char" [("cp", "0062")] none []],
   .mk "rule" [("name", "Latn-follows-virama")] none
     [.mk "look-behind" [] none [.mk "class" [("from-tag", "Latn-virama")] none []], .mk "anchor" [] none []],
   .mk "rule" [("name", "Common-leading-combining-mark"), ("ref", "7")] none
     [.mk "start" [] none [], .mk "char" [("cp", "0300")] none []],
   .mk "rule" [("name", "und-Cyrl-starts")] none
     [.mk "start" [] none [], .mk "class" [("by-ref", "und-Cyrl-vowel")] none []],
   .mk "action" [("disp", "invalid"), ("match", "Latn-vowels-b")] none [],
   .mk "action" [("disp", "invalid"), ("match", "Common-leading-combining-mark")] none []]

theorem both_eq : mNodes [dLatn, dCyrl] = both := by
  rfl

instance (v : String) : Decidable (Clean v) := inferInstanceAs (Decidable (∀ c ∈ v.toList, escV c = [c]))
instance (v : String) : Decidable (Ends v) := inferInstanceAs (Decidable (v.toList.getLast? ≠ some '='))

/-- `Attr`, to be checked. -/
def attrB (p : String × String) : Bool :=
  decide ('"' ∉ p.1.toList) && decide (Ends p.2) &&
  theNames.all (fun key => decide (key.toList <:+ p.1.toList → p.1 = key)) &&
  decide ("ref".toList <:+ p.1.toList → p.1 = "ref" ∨ p.1 = "by-ref") && decide (p.1 ∈ theNames → Clean p.2)

def writtenB (n : Node) : Bool :=
  (every n).all (fun d => decide ('"' ∉ d.tag.toList) && decide (∀ t ∈ d.text, '"' ∉ t.toList) && d.attrs.all attrB)

theorem written_of {n : Node} (h : writtenB n = true) : Written n := by
  unfold writtenB at h
  rw [List.all_eq_true] at h
  constructor
  · intro d hd
    have := h d (within_every hd)
    simp only [Bool.and_eq_true, decide_eq_true_eq] at this
    exact ⟨this.1.1, fun t ht => this.1.2 t ht⟩
  · intro d hd p hp
    have := h d (within_every hd)
    simp only [Bool.and_eq_true, List.all_eq_true] at this
    have := this.2 p hp
    simp only [attrB, Bool.and_eq_true, decide_eq_true_eq, List.all_eq_true] at this
    exact ⟨this.1.1.1.1, this.1.1.1.2, this.1.1.2, this.1.2, this.2⟩

theorem once_of {m t : Txt} {i : Nat} (h : ∀ j ∈ List.range (t.length + 1), m <+: t.drop j → j = i) : Once m t := by
  have key : ∀ a b, t = a ++ m ++ b → a = t.take i := by
    intro a b e
    have : a.length = i := by
      refine h a.length ?_ ?_
      · rw [List.mem_range, e]
        simp only [List.length_append]
        omega
      · rw [e, List.append_assoc, List.drop_left]
        exact List.prefix_append _ _
    rw [← this, e, List.append_assoc, List.take_left]
  intro a b a' b' h1 h2
  rw [key a b h1, ← key a' b' h2]

theorem leaf_act {tag : String} {attrs : Xml.XAttrs} {k m : String} {i : Nat} (hw : writtenB (.mk tag attrs none []) = true)
    (hn : (attrs.map Prod.fst).Nodup) (hk : dget attrs "match" = some m ∨ dget attrs "match" = none)
    (hk' : dget attrs "not-match" = none) (hc : Clean m)
    (ho : dget attrs "match" = none ∨ ∀ j ∈ List.range ((render (.mk tag attrs none [])).length + 1),
      m.toList <+: (render (.mk tag attrs none [])).drop j → j = i) : ActWritten (.mk tag attrs none []) := by
  refine ⟨written_of hw, rfl, hn, ?_⟩
  rintro k (rfl | rfl) v hv h0
  · rcases hk with hk | hk
    · rw [show (Node.mk tag attrs none []).attrs = attrs from rfl, hk] at hv
      cases hv
      rcases ho with ho | ho
      · rw [ho] at hk; cases hk
      · exact ⟨hc, once_of ho⟩
    · rw [show (Node.mk tag attrs none []).attrs = attrs from rfl, hk] at hv
      cases hv
  · rw [show (Node.mk tag attrs none []).attrs = attrs from rfl, hk'] at hv
    cases hv

theorem latn_writable : Writable dLatn := by
  refine ⟨by decide, by decide, ?_, ?_, ?_, ?_⟩
  · intro e he m hm
    rcases hm with rfl | ⟨q, hq, -⟩
    · revert e; decide +kernel
    · cases hq
  · intro e he _
    exact written_of (by revert e; decide +kernel)
  · intro e he hr
    exact ⟨written_of (by revert e; decide +kernel), by revert e; decide +kernel⟩
  · intro e he ha
    simp only [dLatn, C103.demo, List.mem_cons, List.not_mem_nil, or_false] at he
    rcases he with rfl | rfl | rfl | rfl
    · exact absurd ha (by decide)
    · exact absurd ha (by decide)
    · exact absurd ha (by decide)
    · exact leaf_act (k := "match") (m := "vowels-b") (i := 30) (by decide +kernel) (by decide) (by decide) (by decide)
        (by decide) (.inr (by decide +kernel))

theorem cyrl_writable : Writable dCyrl := by
  refine ⟨by decide, by decide, ?_, ?_, ?_, ?_⟩
  · intro e he m hm
    rcases hm with rfl | ⟨q, hq, -⟩
    · revert e; decide +kernel
    · cases hq
  · intro e he _
    exact written_of (by revert e; decide +kernel)
  · intro e he hr
    exact ⟨written_of (by revert e; decide +kernel), by revert e; decide +kernel⟩
  · intro e he ha
    simp only [dCyrl, List.mem_cons, List.not_mem_nil, or_false] at he
    rcases he with rfl | rfl | rfl | rfl | rfl
    · exact absurd ha (by decide)
    · exact absurd ha (by decide)
    · exact absurd ha (by decide)
    · exact leaf_act (k := "match") (m := lcm) (i := 30) (by decide +kernel) (by decide) (by decide) (by decide)
        (by decide) (.inr (by decide +kernel))
    · exact leaf_act (k := "match") (m := lcm) (i := 30) (by decide +kernel) (by decide) (by decide) (by decide)
        (by decide) (.inl (by decide))

/-- The text of the merged section of the two LGRs. -/
example : (mergeSection ([dLatn, dCyrl].map part)).texts = both.map render := by
  have := (section_text (ds := [dLatn, dCyrl]) (by
    intro d hd
    simp only [List.mem_cons, List.not_mem_nil, or_false] at hd
    rcases hd with rfl | rfl
    · exact latn_writable
    · exact cyrl_writable)).1
  rw [this, both_eq]

def bothTags : List (String × List Nat) := [("Latn-virama", [0x94D])]

def bothStart : Rules × RState := ({ rs := { lk := { classes := tagged bothTags, rules := [] }, cache := [] } }, {})

theorem both_read : C103.Read demoP bothTags both (parseRules demoP bothStart both).1.1.rs := by
  refine ⟨⟨bothStart, (parseRules demoP bothStart both).1, ?_, rfl, rfl, by decide +kernel⟩, rfl,
    ⟨by decide +kernel, by decide +kernel, ?_⟩, ?_⟩
  · have : (parseRules demoP bothStart both).2 = .ok () := by decide +kernel
    rw [← this]
  · intro n hn t h
    have e : classNames both = ["Latn-vowel", "und-Cyrl-vowel"] := by decide +kernel
    rw [e] at hn
    have := congrArg (fun s => s.toList.head?) h
    simp only [List.mem_cons, List.not_mem_nil, or_false] at hn
    rcases hn with rfl | rfl <;> simp [Cls.tagPrefix] at this
  · intro e he d hd
    have h0 : ∀ d ∈ everyL both, (dget d.attrs "property" = none) ∧
      (dget d.attrs "count" = none ∨ dget d.attrs "count" = some "1+") := by decide +kernel
    obtain ⟨h1, h2⟩ := h0 d (every_child he d (within_every hd))
    refine ⟨fun p hp => (by rw [h1] at hp; cases hp), fun c hc => ?_⟩
    have hc := count_iff.2 hc
    rcases h2 with h2 | h2
    · rw [h2] at hc
      cases hc
      trivial
    · rw [h2] at hc
      have e : parseCount (some "1+") = .ok (.atLeast 1) := by decide +kernel
      rw [e] at hc
      cases hc
      show 1 ≤ labelMax
      decide

/-- `Plain`, to be checked. -/
def plainB (e : Node) : Bool := (every e).all (fun x => decide (dget x.attrs "by-ref" = none) &&
  decide (dget x.attrs "from-tag" = none) && decide (x.tag ≠ "anchor"))

theorem plain_of {e : Node} (h : plainB e = true) : Plain e := by
  intro x hx
  unfold plainB at h
  rw [List.all_eq_true] at h
  have := h x (within_every hx)
  simp only [Bool.and_eq_true, decide_eq_true_eq] at this
  exact ⟨this.1.1, this.1.2, this.2⟩

theorem not_tagName {c : String} (h : c.toList.head? ≠ some '#') : ¬ IsTagName c := by
  rintro ⟨t, rfl⟩
  refine h ?_
  simp [Cls.tagPrefix]

theorem two_unique {d : Doc} (hd : d ∈ [dLatn, dCyrl]) :
    ∀ d0 ∈ [dLatn, dCyrl], ∀ e0 ∈ d0.es, isRule e0 = true → ∀ s0, Under d0 e0 s0 →
    ∀ r, ruleName s0 (nameOf e0) = ruleName d.script r →
      (s0 = d.script ∧ nameOf e0 = r ∧ e0 ∈ d.es) ∨
      (r = lcm ∧ Plain e0 ∧ ∀ e ∈ d.es, isRule e = true → nameOf e = lcm → Plain e ∧ e.children = e0.children) := by
  have hl : ∀ d ∈ [dLatn, dCyrl], ∀ e ∈ d.es, isRule e = true → nameOf e = lcm → plainB e = true ∧
      e = .mk "rule" [("name", "leading-combining-mark"), ("ref", "1")] none
        [.mk "start" [] none [], .mk "char" [("cp", "0300")] none []] := by
    intro d hd e he hr hn
    simp only [List.mem_cons, List.not_mem_nil, or_false] at hd
    rcases hd with rfl | rfl
    · have : ∀ e ∈ dLatn.es, isRule e = true → nameOf e ≠ lcm := by decide +kernel
      exact absurd hn (this e he hr)
    · simp only [dCyrl, List.mem_cons, List.not_mem_nil, or_false] at he
      rcases he with rfl | rfl | rfl | rfl | rfl
      · exact absurd hr (by decide)
      · exact ⟨by decide +kernel, rfl⟩
      · exact absurd hn (by decide)
      · exact absurd hr (by decide)
      · exact absurd hr (by decide)
  refine unique_of hd ?_ ?_ ?_ ?_ ?_
  · intro d hd d' hd' h
    simp only [List.mem_cons, List.not_mem_nil, or_false] at hd hd'
    rcases hd with rfl | rfl <;> rcases hd' with rfl | rfl
    · rfl
    · exact absurd h (by decide)
    · exact absurd h (by decide)
    · rfl
  · intro d hd
    simp only [List.mem_cons, List.not_mem_nil, or_false] at hd
    rcases hd with rfl | rfl <;> decide
  · intro d hd
    simp only [List.mem_cons, List.not_mem_nil, or_false] at hd
    rcases hd with rfl | rfl <;> rfl
  · intro d hd d' hd' e he e' he' hr hr' hn hn'
    obtain ⟨h1, h2⟩ := hl d hd e he hr hn
    obtain ⟨-, h3⟩ := hl d' hd' e' he' hr' hn'
    exact ⟨plain_of h1, by rw [h2, h3]⟩
  · exact fun d hd e he hr hn => plain_of (hl d hd e he hr hn).1

theorem latn_fit : Fit [dLatn, dCyrl] bothTags dLatn demoTags := by
  have names : ∀ e ∈ dLatn.es, isCls e = true → ∀ n ∈ dget e.attrs "name", n ≠ "" ∧ ':' ∉ n.toList := by decide +kernel
  have refs : ∀ x ∈ everyL dLatn.es, (x.tag = "class" → ∀ c ∈ dget x.attrs "by-ref", c ≠ "" ∧ c.toList.head? ≠ some '#' ∧
      ¬ lcm.toList <+: c.toList ∧ "Latn" ++ "-" ++ c ≠ lcm) ∧
      (x.tag = "rule" → dget x.attrs "by-ref" = none) ∧
      ∀ t ∈ dget x.attrs "from-tag", t = "virama" := by decide +kernel
  refine ⟨fun e he hc n hn => names e he hc n hn, ?_, ?_, ?_, ?_, by decide +kernel, two_unique (by simp)⟩
  · intro e he hc x hx ht c hb
    obtain ⟨h1, h2, -⟩ := (refs x (every_child he x (within_every hx))).1 ht c hb
    exact ⟨h1, not_tagName h2⟩
  · intro e he hc x hx ht c hb
    obtain ⟨h1, h2, h3, h4⟩ := (refs x (every_child he x (within_every hx))).1 ht c hb
    exact ⟨h1, not_tagName h2, h3, h4⟩
  · intro e he hc x hx ht r hb
    rw [(refs x (every_child he x (within_every hx))).2.1 ht] at hb
    cases hb
  · intro e he hc x hx ht t hb y
    have := (refs x (every_child he x (within_every hx))).2.2 t hb
    subst this
    unfold TagSet
    rw [show dget demoTags "virama" = some [0x94D] by decide +kernel,
      show dget bothTags (tagTo dLatn.script "virama") = some [0x94D] by decide +kernel]

theorem both_solid {w : NWorld} (h : Meaning demoP.db bothTags both w) :
    ∀ e ∈ both, isRule e = true → Solid demoP.db w e := by
  have h1 : NSet demoP.db w.sets (.mk "class" [("from-tag", "Latn-virama")] none []) 0x94D := by
    rw [NSet, if_pos rfl]
    exact (h.tag "Latn-virama" 0x94D).2 ⟨_, rfl, by simp⟩
  have h2 : w.sets.name "Latn-vowel" 0x61 := by
    rw [h.cls (.mk "class" [("name", "Latn-vowel")] (some "0061 0065-0066") []) (by simp [both]) (by decide) "Latn-vowel" rfl,
      NSet, if_pos rfl]
    exact .inl ⟨rfl, _, rfl, lists_intro (cps := [0x61, 0x65, 0x66]) (by decide +kernel) (by simp)⟩
  have h3 : w.sets.name "und-Cyrl-vowel" 0x430 := by
    rw [h.cls (.mk "class" [("name", "und-Cyrl-vowel")] (some "0430") []) (by simp [both]) (by decide) "und-Cyrl-vowel" rfl,
      NSet, if_pos rfl]
    exact .inl ⟨rfl, _, rfl, lists_intro (cps := [0x430]) (by decide +kernel) (by simp)⟩
  have chars : ∀ x ∈ everyL both, x.tag = "char" → ∀ cps, Spells x.attrs cps → cps ≠ [] := by
    have : ∀ x ∈ everyL both, x.tag = "char" → Xml.getCp x.attrs ≠ .ok [] := by decide +kernel
    intro x hx ht cps hc e
    rw [← getCp_iff] at hc
    rw [e] at hc
    exact this x hx ht hc
  have choices : ∀ x ∈ everyL both, x.tag ≠ "choice" := by decide +kernel
  have rules : ∀ x ∈ everyL both, x.tag = "rule" → x.children.isEmpty = false := by decide +kernel
  have classes : ∀ x ∈ everyL both, isCls x = true →
      x = .mk "class" [("name", "Latn-vowel")] (some "0061 0065-0066") [] ∨
      x = .mk "class" [("name", "und-Cyrl-vowel")] (some "0430") [] ∨
      x = .mk "class" [("by-ref", "Latn-vowel"), ("count", "1+")] none [] ∨
      x = .mk "class" [("from-tag", "Latn-virama")] none [] ∨ x = .mk "class" [("by-ref", "und-Cyrl-vowel")] none [] := by
    intro x hx hc
    have hx : x ∈ [.mk "class" [("name", "Latn-vowel")] (some "0061 0065-0066") [],
      .mk "class" [("name", "und-Cyrl-vowel")] (some "0430") [],
      .mk "class" [("by-ref", "Latn-vowel"), ("count", "1+")] none [],
      .mk "class" [("from-tag", "Latn-virama")] none [], .mk "class" [("by-ref", "und-Cyrl-vowel")] none []] := by
      have e : (everyL both).filter isCls = [.mk "class" [("name", "Latn-vowel")] (some "0061 0065-0066") [],
        .mk "class" [("name", "und-Cyrl-vowel")] (some "0430") [],
        .mk "class" [("by-ref", "Latn-vowel"), ("count", "1+")] none [],
        .mk "class" [("from-tag", "Latn-virama")] none [], .mk "class" [("by-ref", "und-Cyrl-vowel")] none []] := rfl
      rw [← e]
      exact List.mem_filter.2 ⟨hx, hc⟩
    simpa using hx
  intro e he hr d hd
  have hm := every_child he d (within_every (inRule_within hd))
  refine ⟨chars d hm, fun ht => absurd ht (choices d hm), fun ht _ he => ?_, fun hc => ?_⟩
  · have := rules d hm ht
    rw [he] at this
    cases this
  · rcases classes d hm hc with rfl | rfl | rfl | rfl | rfl
    · refine ⟨0x61, by decide, ?_⟩
      rw [NSet, if_pos rfl]
      exact .inl ⟨rfl, _, rfl, lists_intro (cps := [0x61, 0x65, 0x66]) (by decide +kernel) (by simp)⟩
    · refine ⟨0x430, by decide, ?_⟩
      rw [NSet, if_pos rfl]
      exact .inl ⟨rfl, _, rfl, lists_intro (cps := [0x430]) (by decide +kernel) (by simp)⟩
    · refine ⟨0x61, by decide, ?_⟩
      rw [NSet, if_pos rfl]
      exact h2
    · exact ⟨0x94D, by decide, h1⟩
    · refine ⟨0x430, by decide, ?_⟩
      rw [NSet, if_pos rfl]
      exact h3

def vowelsB : Node := .mk "rule" [("name", "vowels-b")] none
  [.mk "start" [] none [], .mk "class" [("by-ref", "vowel"), ("count", "1+")] none [], .mk "char" [("cp", "0062")] none []]

theorem vowelsB_free : NoAnchor C103.demo vowelsB :=
  .mk _ (by decide) (by
      intro c hc
      simp only [vowelsB, Node.children, List.mem_cons, List.not_mem_nil, or_false] at hc
      rcases hc with rfl | rfl | rfl <;> exact leaf_noAnchor (by decide) rfl (by decide)) (by
      intro _ r hr
      simp [vowelsB, Node.attrs, dget] at hr)

/-- The hypotheses of `merged_rule_matches` are met by a rule of the first LGR. -/
example (label : Seq) (hlen : label.length ≤ labelMax) (hnl : ∀ x ∈ label, Re.newline x = false) :
    ∃ fuel0, ∀ fuel, fuel0 ≤ fuel → ∃ b,
      ((parseRules demoP demoStart C103.demo).1.1.rs.matches_ demoP.db fuel "vowels-b" label none 0).2 = .ok b ∧
      ((parseRules demoP bothStart both).1.1.rs.matches_ demoP.db fuel "Latn-vowels-b" label none 0).2 = .ok b := by
  obtain ⟨w, hl, -, hw⟩ := document_has_meaning both_read label (fun _ _ => False)
  subst hl
  obtain ⟨f, hf⟩ := merged_rule_matches (ds := [dLatn, dCyrl]) (d := dLatn) (by simp) demo_read (by rw [both_eq]; exact both_read) latn_fit
    (by rw [both_eq]; exact hw) hlen hnl (by rw [both_eq]; exact both_solid hw) (e := vowelsB) (by simp [dLatn, C103.demo, vowelsB]) (by decide) rfl
    vowelsB_free
  exact ⟨f, fun fuel hle => hf fuel hle [] [] none 0 (fun _ => rfl)⟩

/-- The same for `merged_context_matches` and the rule with an anchor. -/
example (label : Seq) (hlen : label.length ≤ labelMax) (hnl : ∀ x ∈ label, Re.newline x = false) :
    ∃ fuel0, ∀ fuel, fuel0 ≤ fuel → ∀ a index, index ≤ label.length → ∃ b,
      ((parseRules demoP demoStart C103.demo).1.1.rs.matches_ demoP.db fuel "follows-virama" label (some a) index).2 = .ok b ∧
      ((parseRules demoP bothStart both).1.1.rs.matches_ demoP.db fuel "Latn-follows-virama" label (some a) index).2 = .ok b := by
  obtain ⟨w, hl, -, hw⟩ := document_has_meaning both_read label (fun _ _ => False)
  subst hl
  obtain ⟨f, hf⟩ := merged_context_matches (ds := [dLatn, dCyrl]) (d := dLatn) (by simp) demo_read (by rw [both_eq]; exact both_read) latn_fit
    (by rw [both_eq]; exact hw) hlen hnl (by rw [both_eq]; exact both_solid hw)
    (e := .mk "rule" [("name", "follows-virama")] none
       [.mk "look-behind" [] none [.mk "class" [("from-tag", "virama")] none []], .mk "anchor" [] none []])
    (by simp [dLatn, C103.demo]) (by decide) rfl rfl
    (pre := [.mk "look-behind" [] none [.mk "class" [("from-tag", "virama")] none []]]) (post := [])
    (a0 := .mk "anchor" [] none []) rfl rfl (by
      intro x hx
      simp only [List.append_nil, List.mem_cons, List.not_mem_nil, or_false] at hx
      subst hx
      refine ⟨.mk _ (by decide) (fun c hc => ?_) (fun h => absurd h (by decide)), .inr rfl⟩
      simp only [Node.children, List.mem_cons, List.not_mem_nil, or_false] at hc
      subst hc
      exact leaf_noAnchor (by decide) rfl (by decide))
  exact ⟨f, fun fuel hle a index hi => hf fuel hle [] [] a index hi⟩

end Lgr.Props.C117

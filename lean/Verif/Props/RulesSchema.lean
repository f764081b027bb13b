import Verif.Props.RulesRead
import Verif.Props.SchemaDoc
import Verif.Props.ClassXml
import Verif.Props.MetaMeaning
import Verif.Props.DataMeaning

/-!
# C149: rules of a valid document

What the schema says of the elements of `<rules>`, and when they can be read.
-/

namespace Lgr.Props.C149
open Lgr Xml Text RulesXml Schema MetaXml DocXml
open C147 (One one_node plus_inv star_inv elem_inv contents_children nodes_inv attrs_inv required_inv attrsOf elemsOf direct
  required HexWord hexes In)

variable {x : Lex} {D : String → Pat}

/-! ## Parts of patterns -/

/-- Patterns of elements alone, which are among `L`. -/
inductive Of (D : String → Pat) (L : List Pat) : Pat → Prop where
  | elem {t : String} {p : Pat} : .elem t p ∈ L → Of D L (.elem t p)
  | empty : Of D L .empty
  | group {p q : Pat} : Of D L p → Of D L q → Of D L (.group p q)
  | choice {p q : Pat} : Of D L p → Of D L q → Of D L (.choice p q)
  | plus {p : Pat} : Of D L p → Of D L (.oneOrMore p)
  | ref {n : String} : Of D L (D n) → Of D L (.ref n)

theorem of_inv {L : List Pat} {p : Pat} {a : XAttrs} {c : List Item} (h : Matches x D p a c) (ho : Of D L p) :
    a = [] ∧ ∀ i ∈ c, ∃ n, i = .node n ∧ ∃ q ∈ L, Matches x D q [] [.node n] := by
  induction h with
  | empty => simp
  | elem h1 h2 _ =>
    cases ho with
    | elem hm =>
      refine ⟨rfl, ?_⟩
      intro i hi
      simp only [List.mem_singleton] at hi
      exact ⟨_, hi, _, hm, .elem h1 h2⟩
  | group _ _ hp ih1 ih2 =>
    cases ho with
    | group o1 o2 =>
      obtain ⟨rfl, g1⟩ := ih1 o1
      obtain ⟨rfl, g2⟩ := ih2 o2
      refine ⟨hp.eq_nil, ?_⟩
      intro i hi
      rcases List.mem_append.1 hi with hi | hi
      · exact g1 i hi
      · exact g2 i hi
  | left _ ih => cases ho with | choice h1 h2 => exact ih h1
  | right _ ih => cases ho with | choice h1 h2 => exact ih h2
  | one _ ih => cases ho with | plus h1 => exact ih h1
  | more _ _ hp ih1 ih2 =>
    obtain ⟨rfl, g2⟩ := ih2 ho
    cases ho with
    | plus o1 =>
      obtain ⟨rfl, g1⟩ := ih1 o1
      refine ⟨hp.eq_nil, ?_⟩
      intro i hi
      rcases List.mem_append.1 hi with hi | hi
      · exact g1 i hi
      · exact g2 i hi
  | ref _ ih => cases ho with | ref h1 => exact ih h1
  | _ => cases ho

theorem contents_of {n : Node} {c : List Item} (h : c ∈ contents n) (hc : ∀ i ∈ c, ∃ m, i = .node m) :
    c = n.children.map .node := by
  unfold contents at h
  dsimp only at h
  split at h
  · rename_i hnil
    rw [hnil]
    split at h
    · simp only [List.mem_cons, List.not_mem_nil, or_false] at h
      rcases h with rfl | rfl
      · rfl
      · obtain ⟨m, hm⟩ := hc (.txt _) (List.mem_cons_self ..); cases hm
    · simp only [List.mem_singleton] at h
      subst h
      obtain ⟨m, hm⟩ := hc (.txt _) (List.mem_cons_self ..); cases hm
  · split at h
    · simpa using h
    · simp only [List.mem_singleton] at h
      subst h
      obtain ⟨m, hm⟩ := hc (.txt _) (List.mem_cons_self ..); cases hm

/-- The first part is an attribute which can be missing. -/
theorem peel_all {k : String} {p q : Pat} {a : XAttrs} {c : List Item} (h : Matches x D (.group (.optional (.attr k p)) q) a c) :
    ∃ b, Matches x D q b c ∧ (∀ kv ∈ a, kv ∈ b ∨ (kv.1 = k ∧ Matches x D p [] [.txt kv.2])) ∧ ∀ kv ∈ b, kv ∈ a := by
  cases h with
  | group h1 h2 hp =>
    cases h1 with
    | left h1 =>
      cases h1 with
      | attr h1 =>
        refine ⟨_, h2, ?_, fun kv hkv => hp.mem_iff.2 (List.mem_append_right _ hkv)⟩
        intro kv hkv
        rcases List.mem_append.1 (hp.mem_iff.1 hkv) with hkv | hkv
        · simp only [List.mem_singleton] at hkv
          subst hkv
          exact .inr ⟨rfl, h1⟩
        · exact .inl hkv
    | right h1 =>
      cases h1
      refine ⟨_, h2, ?_, fun kv hkv => hp.mem_iff.2 hkv⟩
      intro kv hkv
      exact .inl (by simpa using hp.mem_iff.1 hkv)

theorem peel {k : String} {p q : Pat} {a : XAttrs} {c : List Item} (h : Matches x D (.group (.optional (.attr k p)) q) a c) :
    ∃ b, Matches x D q b c ∧ (∀ kv ∈ a, kv ∈ b ∨ (kv.1 = k ∧ Matches x D p [] [.txt kv.2])) := by
  obtain ⟨b, h1, h2, _⟩ := peel_all h
  exact ⟨b, h1, h2⟩

/-- The first part is an attribute. -/
theorem peel_req {k : String} {p q : Pat} {a : XAttrs} {c : List Item} (h : Matches x D (.group (.attr k p) q) a c) :
    ∃ b, Matches x D q b c ∧ (∀ kv ∈ a, kv ∈ b ∨ (kv.1 = k ∧ Matches x D p [] [.txt kv.2])) := by
  cases h with
  | group h1 h2 hp =>
    cases h1 with
    | attr h1 =>
      refine ⟨_, h2, ?_⟩
      intro kv hkv
      rcases List.mem_append.1 (hp.mem_iff.1 hkv) with hkv | hkv
      · simp only [List.mem_singleton] at hkv
        subst hkv
        exact .inr ⟨rfl, h1⟩
      · exact .inl hkv

theorem dget_none {a : XAttrs} {k : String} (h : ∀ v, (k, v) ∉ a) : dget a k = none := by
  cases hd : dget a k with
  | none => rfl
  | some v => exact absurd (mem_of_dget hd) (h v)

/-- No children. -/
theorem leaf_inv {p : Pat} {n : Node} {c : List Item} (hc : c ∈ contents n) (h : Matches x D p n.attrs c) (hd : direct p = true)
    (he : elemsOf p = []) : n.children = [] := by
  cases hch : n.children with
  | nil => rfl
  | cons m ms =>
    obtain ⟨q, hq, _⟩ := nodes_inv h hd m (contents_children hc m (by simp [hch]))
    rw [he] at hq
    cases hq

/-- An attribute which the pattern does not have. -/
theorem absent {p : Pat} {a : XAttrs} {c : List Item} (h : Matches x D p a c) (hd : direct p = true) {k : String}
    (hk : k ∉ (attrsOf p).map Prod.fst) : dget a k = none := by
  apply dget_none
  intro v hv
  obtain ⟨q, hq, _⟩ := attrs_inv h hd k v hv
  exact hk (List.mem_map_of_mem (f := Prod.fst) hq)

/-! ## Values -/

/-- The digits of `\d` are those of ASCII. -/
def AsciiDigits (x : Lex) : Prop := ∀ c, x.digit c = true → '0' ≤ c ∧ c ≤ '9'

theorem parseDec_ok {w : List Char} (hne : w ≠ []) (h : ∀ c ∈ w, '0' ≤ c ∧ c ≤ '9') : ∃ n, parseDec w = some n := by
  have hm : ∀ w : List Char, (∀ c ∈ w, '0' ≤ c ∧ c ≤ '9') → ∃ l, w.mapM hexVal = some l := by
    intro w
    induction w with
    | nil => intro _; exact ⟨[], rfl⟩
    | cons c w ih =>
      intro h
      obtain ⟨l, hl⟩ := ih (fun d hd => h d (List.mem_cons_of_mem _ hd))
      have hc : ∃ d, hexVal c = some d := ⟨_, by unfold hexVal; rw [if_pos (h c (by simp))]⟩
      obtain ⟨d, hd⟩ := hc
      exact ⟨d :: l, by rw [List.mapM_cons, hd, hl]; rfl⟩
  obtain ⟨c, w, rfl⟩ := List.exists_cons_of_ne_nil hne
  obtain ⟨l, hl⟩ := hm _ h
  refine ⟨valueOf 10 l, ?_⟩
  unfold parseDec
  rw [if_pos (by simpa using h), hl]
  rfl

theorem digits_of (hx : AsciiDigits x) {s : List Char} (h : (Schema.Re.plus .digit).Is x s) :
    s ≠ [] ∧ ∀ c ∈ s, '0' ≤ c ∧ c ≤ '9' := by
  obtain ⟨ws, hne, rfl, hw⟩ := h
  constructor
  · obtain ⟨w, ws, rfl⟩ := List.exists_cons_of_ne_nil hne
    obtain ⟨c, rfl, _⟩ := hw w (by simp)
    simp
  · intro c hc
    obtain ⟨w, hw1, hc⟩ := List.mem_flatten.1 hc
    obtain ⟨d, rfl, hd⟩ := hw w hw1
    simp only [List.mem_singleton] at hc
    subst hc
    exact hx _ hd

theorem digit_ne {c : Char} (h : '0' ≤ c ∧ c ≤ '9') : c ≠ ':' ∧ c ≠ '+' := by
  have h1 : ('0' : Char).toNat ≤ c.toNat := h.1
  have h2 : c.toNat ≤ ('9' : Char).toNat := h.2
  have e1 : ('0' : Char).toNat = 48 := rfl
  have e2 : ('9' : Char).toNat = 57 := rfl
  constructor
  · rintro rfl
    have : (':' : Char).toNat = 58 := rfl
    omega
  · rintro rfl
    have : ('+' : Char).toNat = 43 := rfl
    omega

/-- A count which the schema allows, and which is written without white space, is read. -/
theorem count_ok (hx : AsciiDigits x) {s : String} (h : Matches x D countPatternP [] [.txt s]) (hs : s.toList = collapse s) :
    ∃ c, parseCount (some s) = .ok c := by
  unfold countPatternP at h
  cases h with
  | data h1 h2 h3 =>
    obtain ⟨u, v, he, hu, hv⟩ := h2 _ rfl
    rw [← hs] at he
    obtain ⟨hu0, hu1⟩ := digits_of hx hu
    have ht : truthy (some s) = true := by
      have : s ≠ "" := by
        rintro rfl
        have h0 : ("" : String).toList = [] := rfl
        rw [h0] at he
        exact hu0 (List.append_eq_nil_iff.1 he.symm).1
      simp [truthy, this]
    unfold parseCount
    rw [ht, if_neg (by simp)]
    dsimp only [Option.getD_some]
    rw [he]
    obtain ⟨n, hn⟩ := parseDec_ok hu0 hu1
    rcases hv with rfl | hv
    · rw [List.append_nil, if_neg (fun h => (digit_ne (hu1 _ h)).1 rfl), if_neg, hn]
      · exact ⟨_, rfl⟩
      · intro h
        exact (digit_ne (hu1 _ (List.mem_of_getLast? h))).2 rfl
    · rcases hv with ⟨c, rfl, p, hp, hc1, hc2⟩ | ⟨w, v, rfl, ⟨c, rfl, p, hp, hc1, hc2⟩, hv⟩
      · simp only [List.mem_singleton] at hp
        subst hp
        have : c = '+' := by exact Char.le_antisymm hc2 hc1
        subst this
        rw [if_neg, if_pos (by simp), List.dropLast_concat, hn]
        · exact ⟨_, rfl⟩
        · intro h
          rcases List.mem_append.1 h with h | h
          · exact (digit_ne (hu1 _ h)).1 rfl
          · revert h; decide
      · simp only [List.mem_singleton] at hp
        subst hp
        have : c = ':' := by exact Char.le_antisymm hc2 hc1
        subst this
        obtain ⟨hv0, hv1⟩ := digits_of hx hv
        obtain ⟨m, hm⟩ := parseDec_ok hv0 hv1
        have hsp : splitOn ':' (u ++ ':' :: v) = [u, v] := by
          have := splitOn_join ':' [u, v] (by simp) (by
            intro w hw c hc
            simp only [List.mem_cons, List.not_mem_nil, or_false] at hw
            rcases hw with rfl | rfl
            · exact (digit_ne (hu1 c hc)).1
            · exact (digit_ne (hv1 c hc)).1)
          simpa [join] using this
        rw [List.singleton_append, if_pos (by simp), hsp]
        simp only [hn, hm]
        exact ⟨_, rfl⟩

theorem hex_of {w : List Char} (h : HexWord w) : ∃ n, parseHex w = some n := by
  have hm : ∀ w : List Char, (∀ c ∈ w, In hexes c) → ∃ l, List.Forall₂ (fun c d => hexVal c = some d) w l := by
    intro w
    induction w with
    | nil => intro _; exact ⟨[], .nil⟩
    | cons c w ih =>
      intro h
      obtain ⟨l, hl⟩ := ih (fun d hd => h d (List.mem_cons_of_mem _ hd))
      have hc : ∃ d, hexVal c = some d := by
        obtain ⟨p, hp, h1, h2⟩ := h c (by simp)
        simp only [hexes, List.mem_cons, List.not_mem_nil, or_false] at hp
        unfold hexVal
        rcases hp with rfl | rfl
        · exact ⟨_, by rw [if_pos ⟨h1, h2⟩]⟩
        · by_cases h0 : '0' ≤ c ∧ c ≤ '9'
          · exact ⟨_, by rw [if_pos h0]⟩
          · exact ⟨_, by rw [if_neg h0, if_pos ⟨h1, h2⟩]⟩
      obtain ⟨d, hd⟩ := hc
      exact ⟨d :: l, .cons hd hl⟩
  obtain ⟨l, hl⟩ := hm w h.2.2
  exact ⟨_, C102.hex_iff.2 ⟨(C147.hexword_space h).1, l, hl, rfl⟩⟩


theorem cp_ok {a : XAttrs} {s : String} (hd : dget a "cp" = some s) (h : Matches x D nonEmptyCodePointLiteralP [] [.txt s]) :
    ∃ cp, getCp a = .ok cp := by
  have hw : ∀ w ∈ words s, HexWord w := by
    apply C147.literal_inv (x := x) (D := D)
    cases h with
    | left h => exact .left h
    | right h => exact .right (.left h)
  have hsp : ∀ c ∈ s.toList, isSpace c = blankChar c := by
    intro c hc
    cases hb : blankChar c with
    | true => exact C147.blank_space hb
    | false =>
      obtain ⟨w, h1, h2⟩ := C147.mem_words blankChar hb s.toList [] (.inl hc)
      exact (C147.hex_facts ((hw w h1).2.2 c h2)).2.1
  have hs : splitWs s.toList = words s := C147.split_words s.toList [] hsp
  have hm : ∀ ws : List (List Char), (∀ w ∈ ws, HexWord w) → ∃ l, ws.mapM parseHex = some l := by
    intro ws
    induction ws with
    | nil => intro _; exact ⟨[], rfl⟩
    | cons w ws ih =>
      intro h
      obtain ⟨l, hl⟩ := ih (fun d hd => h d (List.mem_cons_of_mem _ hd))
      obtain ⟨d, hd⟩ := hex_of (h w (by simp))
      exact ⟨d :: l, by rw [List.mapM_cons, hd, hl]; rfl⟩
  obtain ⟨l, hl⟩ := hm _ hw
  refine ⟨l, ?_⟩
  unfold getCp parseCpAttr
  rw [hd]
  dsimp only
  rw [hs, hl]

/-- A word of the text of a class. -/
def ClassWord (w : List Char) : Prop := HexWord w ∨ ∃ u v, w = u ++ '-' :: v ∧ HexWord u ∧ HexWord v

theorem classWord_facts {w : List Char} (h : ClassWord w) :
    w ≠ [] ∧ ∀ c ∈ w, blankChar c = false ∧ isSpace c = false := by
  rcases h with h | ⟨u, v, rfl, hu, hv⟩
  · exact ⟨(C147.hexword_space h).1, fun c hc => ⟨(C147.hex_facts (h.2.2 c hc)).1, (C147.hex_facts (h.2.2 c hc)).2.1⟩⟩
  · refine ⟨by simp, ?_⟩
    intro c hc
    rcases List.mem_append.1 hc with hc | hc
    · exact ⟨(C147.hex_facts (hu.2.2 c hc)).1, (C147.hex_facts (hu.2.2 c hc)).2.1⟩
    · rcases List.mem_cons.1 hc with rfl | hc
      · decide
      · exact ⟨(C147.hex_facts (hv.2.2 c hc)).1, (C147.hex_facts (hv.2.2 c hc)).2.1⟩

theorem classWord_lists {w : List Char} (h : ClassWord w) : ∃ S, C102.Lists w S := by
  rcases h with h | ⟨u, v, rfl, hu, hv⟩
  · obtain ⟨n, hn⟩ := hex_of h
    exact ⟨fun x => x = n, .inl ⟨n, C102.hex_iff.1 hn, fun _ => Iff.rfl⟩⟩
  · obtain ⟨f, hf⟩ := hex_of hu
    obtain ⟨l, hl⟩ := hex_of hv
    exact ⟨fun x => f ≤ x ∧ x ≤ l, .inr ⟨u, v, f, l, rfl, C102.hex_iff.1 hf, C102.hex_iff.1 hl, fun _ => Iff.rfl⟩⟩

theorem text_ok {s : String} (hw : ∀ w ∈ words s, ClassWord w) : ∃ cps, textCps (splitWs (strip s.toList)) = .ok cps := by
  have hsp : ∀ c ∈ s.toList, isSpace c = blankChar c := by
    intro c hc
    cases hb : blankChar c with
    | true => exact C147.blank_space hb
    | false =>
      obtain ⟨w, h1, h2⟩ := C147.mem_words blankChar hb s.toList [] (.inl hc)
      exact ((classWord_facts (hw w h1)).2 c h2).2
  have hs : splitWs s.toList = words s := C147.split_words s.toList [] hsp
  rw [C102.split_strip, hs]
  obtain ⟨cps, h, _⟩ := C102.text_ok (fun w h => classWord_lists (hw w h))
  exact ⟨cps, h⟩

theorem spaces_of {s : List Char} (h : (Schema.Re.star .space).Is x s) : ∀ c ∈ s, blankChar c = true := by
  obtain ⟨ws, rfl, hw⟩ := h
  intro c hc
  obtain ⟨w, hw1, hc⟩ := List.mem_flatten.1 hc
  obtain ⟨d, rfl, hd⟩ := hw w hw1
  simp only [List.mem_singleton] at hc
  subst hc
  exact hd

theorem shorthand_words {s : String} (h : Matches x D codePointSetShorthandP [] [.txt s]) : ∀ w ∈ words s, ClassWord w := by
  unfold codePointSetShorthandP at h
  cases h with
  | data h1 h2 h3 =>
    obtain ⟨sp, r, he, hsp, w0, r, rfl, hw0, ts, sp', rfl, hts, hsp'⟩ := h2 _ rfl
    obtain ⟨w, ws, hj, hws⟩ := C147.list_iff.1 (⟨w0, ts, rfl, hw0, hts⟩ :
      (Schema.Re.cat _ (.star (.cat (.cls [(' ', ' ')]) _))).Is x (w0 ++ ts))
    have hcw : ∀ u ∈ w :: ws, ClassWord u := by
      intro u hu
      rcases hws u hu with h | ⟨a, b, rfl, ha, c, d, rfl, ⟨e, rfl, p, hp, hp1, hp2⟩, hd⟩
      · exact .inl (C147.rep_iff.1 h)
      · simp only [List.mem_singleton] at hp
        subst hp
        have : e = '-' := Char.le_antisymm hp2 hp1
        subst this
        exact .inr ⟨a, d, rfl, C147.rep_iff.1 ha, C147.rep_iff.1 hd⟩
    rw [← List.append_assoc w0 ts sp', hj] at he
    have hall : ∀ c ∈ collapse s, blankChar c = false → isSpace c = false := by
      intro c hc hb
      rw [he] at hc
      rcases List.mem_append.1 hc with hc | hc
      · rw [spaces_of hsp c hc] at hb; cases hb
      · rcases List.mem_append.1 hc with hc | hc
        · rcases C147.mem_join_inv hc with rfl | ⟨u, hu, hc⟩
          · revert hb; decide
          · exact ((classWord_facts (hcw u hu)).2 c hc).2
        · rw [spaces_of hsp' c hc] at hb; cases hb
    have h4 : splitWs (collapse s) = words s := by
      unfold collapse
      apply splitWs_join
      intro u hu
      refine ⟨(C147.words_nospace u hu).1, fun c hc => hall c (C147.mem_join' hu hc) ((C147.words_nospace u hu).2 c hc)⟩
    have h5 : splitWs (collapse s) = w :: ws := by
      rw [he]
      unfold splitWs
      rw [C102.go_spaces _ _ (fun c hc => C147.blank_space (spaces_of hsp c hc)),
        C102.go_trailing _ (fun c hc => C147.blank_space (spaces_of hsp' c hc))]
      exact splitWs_join (w :: ws) (fun u hu => ⟨(classWord_facts (hcw u hu)).1, fun c hc => ((classWord_facts (hcw u hu)).2 c hc).2⟩)
    rw [← h4, h5]
    exact hcw

theorem blank_words {s : String} (h : blank s = true) : words s = [] := by
  have h2 : ∀ (l cur : List Char), (∀ c ∈ l, blankChar c = true) → cur = [] → wordsGo blankChar cur l = [] := by
    intro l
    induction l with
    | nil => rintro cur _ rfl; rfl
    | cons d l ih =>
      rintro cur hl rfl
      simp only [wordsGo, hl d (by simp), if_true]
      exact ih [] (fun e he => hl e (List.mem_cons_of_mem _ he)) rfl
  exact h2 _ _ (List.all_eq_true.1 h) rfl

/-! ## Classes -/

/-- Classes and combinations of classes. -/
def classPats : List Pat := [complementOperatorP, unionOperatorP, intersectionOperatorP, differenceOperatorP,
  symmetricDifferenceOperatorP, classInvocationP, classDeclarationP]

/-- Combinations of classes. -/
def opPats : List Pat := [complementOperatorP, unionOperatorP, intersectionOperatorP, differenceOperatorP,
  symmetricDifferenceOperatorP]

theorem of_ops {L : List Pat} (h : ∀ q ∈ opPats, q ∈ L) : Of defs L (.ref "set-operator") :=
  .ref (.choice (.ref (.elem (h _ (by simp [opPats, complementOperatorP])))) (.choice (.ref (.elem (h _ (by simp [opPats, unionOperatorP]))))
    (.choice (.ref (.elem (h _ (by simp [opPats, intersectionOperatorP])))) (.choice (.ref (.elem (h _ (by simp [opPats, differenceOperatorP]))))
      (.ref (.elem (h _ (by simp [opPats, symmetricDifferenceOperatorP]))))))))

theorem of_nested {L : List Pat} (h : ∀ q ∈ classPats, q ∈ L) : Of defs L (.ref "class-or-set-operator-nested") :=
  .ref (.choice (of_ops (fun q hq => h q (by
    simp only [opPats, List.mem_cons, List.not_mem_nil, or_false] at hq
    simp only [classPats, List.mem_cons, List.not_mem_nil, or_false]
    tauto))) (.choice (.elem (h _ (by simp [classPats, classInvocationP])))
    (.elem (h _ (by simp [classPats, classDeclarationP])))))

theorem one_nested : One defs (.ref "class-or-set-operator-nested") :=
  .ref (.choice (.ref (.choice (.ref (.elem _ _)) (.choice (.ref (.elem _ _)) (.choice (.ref (.elem _ _))
    (.choice (.ref (.elem _ _)) (.ref (.elem _ _))))))) (.choice (.elem _ _) (.elem _ _)))

/-- The attributes of combinations. -/
theorem op_attrs {q : Pat} {a : XAttrs} {c : List Item}
    (h : Matches x D (.group (.optional (.attr "name" identifierP)) (.group (.optional (.attr "comment" .text))
      (.group (.optional (.attr "ref" refPatternP)) (.group (.optional (.attr "count" countPatternP)) q)))) a c) :
    ∃ b, Matches x D q b c ∧ ∀ kv ∈ a, kv ∈ b ∨ kv.1 ∈ ["name", "comment", "ref"] ∨
      (kv.1 = "count" ∧ Matches x D countPatternP [] [.txt kv.2]) := by
  obtain ⟨b1, h, g1⟩ := peel h
  obtain ⟨b2, h, g2⟩ := peel h
  obtain ⟨b3, h, g3⟩ := peel h
  obtain ⟨b4, h, g4⟩ := peel h
  refine ⟨b4, h, ?_⟩
  intro kv hkv
  rcases g1 kv hkv with hkv | hkv
  · rcases g2 kv hkv with hkv | hkv
    · rcases g3 kv hkv with hkv | hkv
      · rcases g4 kv hkv with hkv | hkv
        · exact .inl hkv
        · exact .inr (.inr hkv)
      · exact .inr (.inl (by simp [hkv.1]))
    · exact .inr (.inl (by simp [hkv.1]))
  · exact .inr (.inl (by simp [hkv.1]))

/-- What a combination says. -/
structure OpSays (x : Lex) (n : Node) : Prop where
  kind : ∃ op, combOf n.tag = some op ∧ arity op n.children.length
  tag : n.tag ∈ classTags ∧ n.tag ≠ "class" ∧ n.tag ≠ "rule"
  kids : ∀ m ∈ n.children, ∃ q ∈ classPats, Matches x defs q [] [.node m]
  attrs : ∀ kv ∈ n.attrs, kv.1 ∈ ["name", "comment", "ref"] ∨ (kv.1 = "count" ∧ Matches x defs countPatternP [] [.txt kv.2])

theorem op_says {n : Node} {q : Pat} (hq : q ∈ opPats) (h : Matches x defs q [] [.node n]) : OpSays x n := by
  have key : ∀ {t : String} {op : Comb} {r : Pat}, Matches x defs (.elem t (.group (.optional (.attr "name" identifierP)) (.group
      (.optional (.attr "comment" .text)) (.group (.optional (.attr "ref" refPatternP)) (.group (.optional (.attr "count"
        countPatternP)) r))))) [] [.node n] → combOf t = some op → t ∈ classTags ∧ t ≠ "class" ∧ t ≠ "rule" → Of defs classPats r →
      (∀ b c, Matches x defs r b c → arity op c.length) → OpSays x n := by
    intro t op r h h1 h2 h3 h4
    have ht : n.tag = t := by
      obtain ⟨q, hq, _⟩ := nodes_inv h rfl n (by simp)
      simp only [elemsOf, List.mem_singleton, Prod.mk.injEq] at hq
      exact hq.1
    obtain ⟨c, hc, hm⟩ := elem_inv h
    obtain ⟨b, hb, hab⟩ := op_attrs hm
    obtain ⟨rfl, hk⟩ := of_inv hb h3
    have he := contents_of hc (fun i hi => ⟨_, (hk i hi).choose_spec.1⟩)
    refine ⟨⟨op, by rw [ht]; exact h1, ?_⟩, by rw [ht]; exact h2, ?_, ?_⟩
    · have := h4 _ _ hb
      rw [he, List.length_map] at this
      exact this
    · intro m hm
      obtain ⟨n', e, q, hq, hh⟩ := hk (.node m) (by rw [he]; exact List.mem_map_of_mem hm)
      cases e
      exact ⟨q, hq, hh⟩
    · intro kv hkv
      rcases hab kv hkv with h | h
      · cases h
      · exact h
  have hN : Of defs classPats (.ref "class-or-set-operator-nested") := of_nested (fun q hq => hq)
  have two : ∀ b c, Matches x defs (.group (.ref "class-or-set-operator-nested") (.ref "class-or-set-operator-nested")) b c →
      c.length = 2 := by
    intro b c h
    cases h with
    | group h1 h2 _ =>
      obtain ⟨_, n1, rfl⟩ := one_node h1 one_nested
      obtain ⟨_, n2, rfl⟩ := one_node h2 one_nested
      rfl
  simp only [opPats, List.mem_cons, List.not_mem_nil, or_false] at hq
  rcases hq with rfl | rfl | rfl | rfl | rfl
  · refine key (op := .complement) h rfl (by decide) hN ?_
    intro b c h
    obtain ⟨_, n1, rfl⟩ := one_node h one_nested
    rfl
  · refine key (op := .union) h rfl (by decide) (.group hN (.plus hN)) ?_
    intro b c h
    cases h with
    | group h1 h2 _ =>
      obtain ⟨_, n1, rfl⟩ := one_node h1 one_nested
      have := (plus_inv h2 rfl one_nested).1
      have := List.length_pos_iff.2 this
      simp only [arity, List.length_append, List.length_singleton]
      omega
  · exact key (op := .intersection) h rfl (by decide) (.group hN hN) (fun b c h => two b c h)
  · exact key (op := .difference) h rfl (by decide) (.group hN hN) (fun b c h => two b c h)
  · exact key (op := .symDiff) h rfl (by decide) (.group hN hN) (fun b c h => two b c h)

theorem tag_of {t : String} {p : Pat} {n : Node} (h : Matches x D (.elem t p) [] [.node n]) : n.tag = t := by
  obtain ⟨q, hq, _⟩ := nodes_inv h rfl n (by simp)
  simp only [elemsOf, List.mem_singleton, Prod.mk.injEq] at hq
  exact hq.1

theorem ref_shape {n : Node} (h : Matches x D classInvocationP [] [.node n]) : ClassShape n := by
  have ht := tag_of h
  obtain ⟨c, hc, hm⟩ := elem_inv h
  have hch := leaf_inv hc hm rfl rfl
  have hb := required_inv hm "by-ref" (by decide)
  have hn := absent hm rfl (k := "name") (by decide)
  have hf := absent hm rfl (k := "from-tag") (by decide)
  have hp := absent hm rfl (k := "property") (by decide)
  have hr := absent hm rfl (k := "ref") (by decide)
  obtain ⟨t, a, s, ns⟩ := n
  simp only [Node.tag, Node.attrs, Node.children] at *
  subst ht hch
  obtain ⟨b, hb⟩ := Option.isSome_iff_exists.1 hb
  exact .ref hb hn hf hp (by unfold getList; rw [hr]; rfl)

theorem decl_shape {n : Node} (h : Matches x D classDeclarationP [] [.node n]) :
    ClassShape n ∧ n.tag = "class" ∧ dget n.attrs "by-ref" = none := by
  have ht := tag_of h
  obtain ⟨c, hc, hm⟩ := elem_inv h
  have hch := leaf_inv hc hm rfl rfl
  have hb := absent hm rfl (k := "by-ref") (by decide)
  refine ⟨?_, ht, hb⟩
  have hw : ∀ w ∈ words (n.text.getD ""), ClassWord w := by
    obtain ⟨b1, h, _⟩ := peel hm
    obtain ⟨b2, h, _⟩ := peel h
    obtain ⟨b3, h, _⟩ := peel h
    obtain ⟨b4, h, _⟩ := peel h
    have hnil : c = [] → blank (n.text.getD "") = true := by
      rintro rfl
      unfold contents at hc
      dsimp only at hc
      rw [hch] at hc
      dsimp only at hc
      split at hc
      · assumption
      · simp at hc
    cases h with
    | left h =>
      cases h with
      | attr _ => rw [blank_words (hnil rfl)]; simp
    | right h =>
      cases h with
      | left h =>
        cases h with
        | attr _ => rw [blank_words (hnil rfl)]; simp
      | right h =>
        have hc' := h
        unfold codePointSetShorthandP at h
        cases h with
        | data _ _ _ =>
          rw [C147.contents_text_inv hc]
          exact shorthand_words hc'
  obtain ⟨t, a, s, ns⟩ := n
  simp only [Node.tag, Node.attrs, Node.children, Node.text] at *
  subst ht hch
  refine .decl hb ?_
  rintro s rfl _
  exact text_ok hw

theorem size_child {n m : Node} (h : m ∈ n.children) : sizeOf m < sizeOf n := by
  obtain ⟨t, a, s, ns⟩ := n
  have := List.sizeOf_lt_of_mem h
  simp only [Node.children] at this
  simp only [Node.mk.sizeOf_spec]
  omega

theorem class_shape : ∀ (k : Nat) {n : Node} {q : Pat}, sizeOf n < k → q ∈ classPats → Matches x defs q [] [.node n] → ClassShape n := by
  intro k
  induction k with
  | zero => intro n q h; omega
  | succ k ih =>
    intro n q hk hq h
    by_cases ho : q ∈ opPats
    · obtain ⟨⟨op, h1, h2⟩, ⟨-, h3, h4⟩, h5, -⟩ := op_says ho h
      have hkid : ∀ m ∈ n.children, ClassShape m := by
        intro m hm
        obtain ⟨r, hr, hh⟩ := h5 m hm
        exact ih (by have := size_child hm; omega) hr hh
      obtain ⟨t, a, s, ns⟩ := n
      exact .op h3 h4 h1 h2 hkid
    · have : q = classInvocationP ∨ q = classDeclarationP := by
        simp only [classPats, opPats, List.mem_cons, List.not_mem_nil, or_false] at hq ho
        tauto
      rcases this with rfl | rfl
      · exact ref_shape h
      · exact (decl_shape h).1

/-! ## Parts of rules -/

/-- Counts are written without white space around them. -/
def PlainCount (a : XAttrs) : Prop := ∀ s, dget a "count" = some s → s.toList = collapse s

/-- Parts of rules. -/
def matchPats : List Pat := [startMatcherP, endMatcherP, anchorMatcherP, anyMatcherP, charMatcherP, choiceMatcherP,
  lookAheadMatcherP, lookBehindMatcherP, ruleMatcherP] ++ classPats

theorem of_class : Of defs matchPats (.ref "class-or-set-operator-nested") :=
  of_nested (fun _ hq => List.mem_append_right _ hq)

theorem of_choice : Of defs matchPats (.ref "match-operator-choice") :=
  .ref (.choice (.elem (by simp [matchPats, anyMatcherP])) (.choice (.ref (.elem (by simp [matchPats, choiceMatcherP])))
    (.choice (.elem (by simp [matchPats, startMatcherP])) (.choice (.elem (by simp [matchPats, endMatcherP]))
    (.choice (.elem (by simp [matchPats, charMatcherP])) (.choice of_class (.ref (.elem (by simp [matchPats, ruleMatcherP])))))))))

theorem of_nonpos : Of defs matchPats (.ref "match-operators-non-pos") :=
  .ref (.group (.choice (.elem (by simp [matchPats, startMatcherP])) .empty) (.group (.choice (.plus
    (.choice (.elem (by simp [matchPats, anyMatcherP])) (.choice (.ref (.elem (by simp [matchPats, choiceMatcherP])))
    (.choice (.elem (by simp [matchPats, charMatcherP])) (.choice of_class (.ref (.elem (by simp [matchPats, ruleMatcherP]))))))))
    .empty) (.choice (.elem (by simp [matchPats, endMatcherP])) .empty)))

theorem of_operators : Of defs matchPats (.ref "match-operators") :=
  .ref (.choice of_nonpos (.ref (.group (.choice (.ref (.elem (by simp [matchPats, lookBehindMatcherP]))) .empty)
    (.group (.elem (by simp [matchPats, anchorMatcherP])) (.choice (.ref (.elem (by simp [matchPats, lookAheadMatcherP]))) .empty)))))

theorem count_of (hx : AsciiDigits x) {a : XAttrs} (hp : PlainCount a)
    (h : ∀ v, ("count", v) ∈ a → Matches x D countPatternP [] [.txt v]) : ∃ c, parseCount (dget a "count") = .ok c := by
  cases hd : dget a "count" with
  | none => exact ⟨.none, rfl⟩
  | some v => exact count_ok hx (h v (mem_of_dget hd)) (hp v hd)

/-- The children are parts of rules. -/
theorem kids_of {L : List Pat} {n : Node} {p : Pat} {b : XAttrs} {c : List Item} (hc : c ∈ contents n) (h : Matches x D p b c) (ho : Of D L p) :
    b = [] ∧ ∀ m ∈ n.children, ∃ q ∈ L, Matches x D q [] [.node m] := by
  obtain ⟨hb, hk⟩ := of_inv h ho
  have he := contents_of hc (fun i hi => ⟨_, (hk i hi).choose_spec.1⟩)
  refine ⟨hb, ?_⟩
  intro m hm
  obtain ⟨n', e, q, hq, hh⟩ := hk (.node m) (by rw [he]; exact List.mem_map_of_mem hm)
  cases e
  exact ⟨q, hq, hh⟩

theorem match_shape (hx : AsciiDigits x) : ∀ (k : Nat) {n : Node} {q : Pat}, sizeOf n < k → q ∈ matchPats →
    Matches x defs q [] [.node n] → (∀ m ∈ n :: below n, PlainCount m.attrs) → MatchShape n := by
  intro k
  induction k with
  | zero => intro n q h; omega
  | succ k ih =>
    intro n q hk hq h hpl
    have hp := hpl n (by simp)
    have kids : (∀ m ∈ n.children, ∃ q ∈ matchPats, Matches x defs q [] [.node m]) → ∀ m ∈ n.children, MatchShape m := by
      intro hc m hm
      obtain ⟨q, hq, hh⟩ := hc m hm
      refine ih (by have := size_child hm; omega) hq hh ?_
      intro j hj
      refine hpl j (List.mem_cons_of_mem _ ?_)
      obtain ⟨t, a, s, ns⟩ := n
      exact mem_belowAll.2 ⟨m, hm, hj⟩
    have leaf : ∀ {t : String} {p : Pat}, Matches x defs (.elem t p) [] [.node n] → t ∈ ["anchor", "any", "end", "start"] →
        direct p = true → elemsOf p = [] → "name" ∉ (attrsOf p).map Prod.fst →
        (∀ r, ("count", r) ∈ attrsOf p → r = countPatternP) → MatchShape n := by
      intro t p h h1 h2 h3 h4 h5
      have ht := tag_of h
      obtain ⟨c, hc, hm⟩ := elem_inv h
      have hch := leaf_inv hc hm h2 h3
      have hn := absent hm h2 h4
      obtain ⟨cnt, hcnt⟩ := count_of (D := defs) hx hp (fun v hv => by
        obtain ⟨r, hr, hh⟩ := attrs_inv hm h2 _ v hv
        rw [h5 r hr] at hh
        exact hh)
      obtain ⟨t', a, s, ns⟩ := n
      simp only [Node.tag, Node.attrs, Node.children] at *
      subst ht hch
      exact .leaf h1 hcnt hn
    have look : ∀ {t : String} {p : Pat}, Matches x defs (.elem t (.group (.optional (.attr "comment" .text)) p)) [] [.node n] →
        t ∈ ["choice", "look-ahead", "look-behind"] → Of defs matchPats p → MatchShape n := by
      intro t p h h1 h2
      have ht := tag_of h
      obtain ⟨c, hc, hm⟩ := elem_inv h
      obtain ⟨b, hb, hab⟩ := peel hm
      obtain ⟨rfl, hk⟩ := kids_of hc hb h2
      have hkey : ∀ kv ∈ n.attrs, kv.1 = "comment" := by
        intro kv hkv
        rcases hab kv hkv with h | h
        · cases h
        · exact h.1
      have hn : dget n.attrs "name" = none := dget_none (fun v hv => absurd (hkey _ hv) (by simp))
      have hcnt : dget n.attrs "count" = none := dget_none (fun v hv => absurd (hkey _ hv) (by simp))
      have hkids := kids hk
      obtain ⟨t', a, s, ns⟩ := n
      simp only [Node.tag, Node.attrs, Node.children] at *
      subst ht
      exact .many (c := .none) h1 (by rw [hcnt]; rfl) hn hkids
    simp only [matchPats, List.mem_append, List.mem_cons, List.not_mem_nil, or_false] at hq
    rcases hq with (rfl | rfl | rfl | rfl | rfl | rfl | rfl | rfl | rfl) | hq
    · exact leaf h (by decide) rfl rfl (by decide) (by simp [attrsOf, Pat.optional])
    · exact leaf h (by decide) rfl rfl (by decide) (by simp [attrsOf, Pat.optional])
    · exact leaf h (by decide) rfl rfl (by decide) (by simp [attrsOf, Pat.optional])
    · exact leaf h (by decide) rfl rfl (by decide) (by simp [attrsOf, Pat.optional])
    · have ht := tag_of h
      obtain ⟨c, hc, hm⟩ := elem_inv h
      have hch := leaf_inv hc hm rfl rfl
      have hn := absent hm rfl (k := "name") (by decide)
      have hcp := required_inv hm "cp" (by decide)
      obtain ⟨v, hv⟩ := Option.isSome_iff_exists.1 hcp
      obtain ⟨cp, hcp⟩ := cp_ok (x := x) (D := defs) hv (by
        obtain ⟨r, hr, hh⟩ := attrs_inv hm rfl _ v (mem_of_dget hv)
        simp [attrsOf, Pat.optional, codePointSetShorthandP] at hr
        rw [hr] at hh
        exact hh)
      obtain ⟨cnt, hcnt⟩ := count_of (D := defs) hx hp (fun v hv => by
        obtain ⟨r, hr, hh⟩ := attrs_inv hm rfl _ v hv
        simp [attrsOf, Pat.optional, codePointSetShorthandP] at hr
        rw [hr] at hh
        exact hh)
      obtain ⟨t', a, s, ns⟩ := n
      simp only [Node.tag, Node.attrs, Node.children] at *
      subst ht hch
      exact .char hcnt hn hcp
    · have ht := tag_of h
      obtain ⟨c, hc, hm⟩ := elem_inv h
      obtain ⟨b1, hb, hab1⟩ := peel hm
      obtain ⟨b2, hb, hab2⟩ := peel hb
      obtain ⟨rfl, hk⟩ := kids_of hc hb (.group of_choice (.plus of_choice))
      have hkey : ∀ kv ∈ n.attrs, kv.1 = "comment" ∨ (kv.1 = "count" ∧ Matches x defs countPatternP [] [.txt kv.2]) := by
        intro kv hkv
        rcases hab1 kv hkv with h | h
        · rcases hab2 kv h with h | h
          · cases h
          · exact .inl h.1
        · exact .inr h
      have hn : dget n.attrs "name" = none := dget_none (fun v hv => by
        rcases hkey _ hv with h | h
        · exact absurd h (by simp)
        · exact absurd h.1 (by simp))
      obtain ⟨cnt, hcnt⟩ := count_of (D := defs) hx hp (fun v hv => by
        rcases hkey _ hv with h | h
        · exact absurd h (by simp)
        · exact h.2)
      have hkids := kids hk
      obtain ⟨t', a, s, ns⟩ := n
      simp only [Node.tag, Node.attrs, Node.children] at *
      subst ht
      exact .many (by decide) hcnt hn hkids
    · exact look h (by decide) of_nonpos
    · exact look h (by decide) of_nonpos
    · have ht := tag_of h
      obtain ⟨c, hc, hm⟩ := elem_inv h
      obtain ⟨b1, hb, hab1, hs1⟩ := peel_all hm
      obtain ⟨b2, hb, hab2, hs2⟩ := peel_all hb
      obtain ⟨b3, hb, hab3, hs3⟩ := peel_all hb
      have hkey : ∀ kv ∈ n.attrs, kv ∈ b3 ∨ kv.1 ∈ ["comment", "ref"] ∨ (kv.1 = "count" ∧ Matches x defs countPatternP [] [.txt kv.2]) := by
        intro kv hkv
        rcases hab1 kv hkv with h | h
        · rcases hab2 kv h with h | h
          · rcases hab3 kv h with h | h
            · exact .inl h
            · exact .inr (.inl (by simp [h.1]))
          · exact .inr (.inl (by simp [h.1]))
        · exact .inr (.inr h)
      have rest : (∀ kv ∈ b3, kv.1 = "by-ref") → dget n.attrs "name" = none ∧ ∃ cnt, parseCount (dget n.attrs "count") = .ok cnt := by
        intro h3
        constructor
        · refine dget_none (fun v hv => ?_)
          rcases hkey _ hv with h | h | h
          · exact absurd (h3 _ h) (by simp)
          · revert h; simp
          · exact absurd h.1 (by simp)
        · refine count_of (D := defs) hx hp (fun v hv => ?_)
          rcases hkey _ hv with h | h | h
          · exact absurd (h3 _ h) (by simp)
          · revert h; simp
          · exact h.2
      cases hb with
      | left hb =>
        cases hb with
        | attr hv =>
          obtain ⟨hn, cnt, hcnt⟩ := rest (by simp)
          have hby : (dget n.attrs "by-ref").isSome = true :=
            dget_isSome.2 (List.mem_map_of_mem (f := Prod.fst) (hs1 _ (hs2 _ (hs3 _ (List.mem_singleton.2 rfl)))))
          obtain ⟨v, hv⟩ := Option.isSome_iff_exists.1 hby
          have hch : n.children = [] := by
            cases hch : n.children with
            | nil => rfl
            | cons m ms => exact absurd (contents_children hc m (by simp [hch])) (by simp)
          obtain ⟨t', a, s, ns⟩ := n
          simp only [Node.tag, Node.attrs, Node.children] at *
          subst ht hch
          exact .ref hcnt hn hv
      | right hb =>
        obtain ⟨rfl, hk⟩ := kids_of hc hb of_operators
        obtain ⟨hn, cnt, hcnt⟩ := rest (by simp)
        have hby : dget n.attrs "by-ref" = none := dget_none (fun v hv => by
          rcases hkey _ hv with h | h | h
          · cases h
          · revert h; simp
          · exact absurd h.1 (by simp))
        have hkids := kids hk
        obtain ⟨t', a, s, ns⟩ := n
        simp only [Node.tag, Node.attrs, Node.children] at *
        subst ht
        exact .rule hcnt hn hby hkids
    · refine .cls (c := (count_of (D := defs) hx hp ?_).choose) (count_of (D := defs) hx hp ?_).choose_spec
        (class_shape (sizeOf n + 1) (by omega) hq h)
      all_goals
        intro v hv
        by_cases ho : q ∈ opPats
        · rcases (op_says ho h).attrs _ hv with h | h
          · revert h; simp
          · exact h.2
        · have : q = classInvocationP ∨ q = classDeclarationP := by
            simp only [classPats, opPats, List.mem_cons, List.not_mem_nil, or_false] at hq ho
            tauto
          rcases this with rfl | rfl
          · obtain ⟨c, hc, hm⟩ := elem_inv h
            obtain ⟨r, hr, hh⟩ := attrs_inv hm rfl _ v hv
            simp [attrsOf, Pat.optional, codePointSetShorthandP] at hr
            rw [hr] at hh
            exact hh
          · obtain ⟨c, hc, hm⟩ := elem_inv h
            obtain ⟨r, hr, hh⟩ := attrs_inv hm rfl _ v hv
            simp [attrsOf, Pat.optional, codePointSetShorthandP] at hr
            rw [hr] at hh
            exact hh

/-! ## Elements of the section -/

theorem item_shape (hx : AsciiDigits x) {n : Node} (h : Matches x defs C147.ruleItemP [] [.node n])
    (hp : ∀ m ∈ below n, PlainCount m.attrs) : ItemShape n := by
  cases h with
  | left h =>
    cases h with
    | left h =>
      obtain ⟨h1, h2, h3⟩ := decl_shape h
      exact .cls (by rw [h2]; decide) h1 h3
    | right h =>
      obtain ⟨-, hk⟩ := of_inv h (of_ops (L := opPats) (fun _ hq => hq))
      obtain ⟨n', e, q, hq, hh⟩ := hk (.node n) (by simp)
      cases e
      have ho := op_says hq hh
      refine .cls ho.tag.1 (class_shape (sizeOf n + 1) (by omega) ?_ hh) (dget_none (fun v hv => ?_))
      · simp only [opPats, List.mem_cons, List.not_mem_nil, or_false] at hq
        simp only [classPats, List.mem_cons, List.not_mem_nil, or_false]
        tauto
      · rcases ho.attrs _ hv with h | h
        · revert h; simp
        · exact absurd h.1 (by simp)
  | right h =>
    cases h with
    | left h =>
      have ht := tag_of h
      obtain ⟨c, hc, hm⟩ := elem_inv h
      obtain ⟨b1, hb, hab1⟩ := peel_req hm
      obtain ⟨b2, hb, hab2⟩ := peel hb
      obtain ⟨b3, hb, hab3⟩ := peel hb
      obtain ⟨rfl, hk⟩ := kids_of hc hb of_operators
      have hby : dget n.attrs "by-ref" = none := dget_none (fun v hv => by
        rcases hab1 _ hv with h | h
        · rcases hab2 _ h with h | h
          · rcases hab3 _ h with h | h
            · cases h
            · exact absurd h.1 (by simp)
          · exact absurd h.1 (by simp)
        · exact absurd h.1 (by simp))
      have hkids : ∀ m ∈ n.children, MatchShape m := by
        intro m hm
        obtain ⟨q, hq, hh⟩ := hk m hm
        refine match_shape hx (sizeOf m + 1) (by omega) hq hh ?_
        intro j hj
        refine hp j ?_
        obtain ⟨t, a, s, ns⟩ := n
        exact mem_belowAll.2 ⟨m, hm, hj⟩
      obtain ⟨t', a, s, ns⟩ := n
      simp only [Node.tag, Node.attrs, Node.children] at *
      subst ht
      exact .rule hby hkids
    | right h =>
      have ht := tag_of h
      obtain ⟨c, hc, hm⟩ := elem_inv h
      have hch := leaf_inv hc hm rfl rfl
      obtain ⟨b1, hb, hab1⟩ := peel hm
      obtain ⟨b2, hb, hab2⟩ := peel hb
      obtain ⟨b3, hb, hab3⟩ := peel_req hb
      have hnot : ¬ ((dget n.attrs "match").isSome ∧ (dget n.attrs "not-match").isSome) := by
        rintro ⟨g1, g2⟩
        obtain ⟨v1, g1⟩ := Option.isSome_iff_exists.1 g1
        obtain ⟨v2, g2⟩ := Option.isSome_iff_exists.1 g2
        have up : ∀ k v, k = "match" ∨ k = "not-match" → (k, v) ∈ n.attrs → (k, v) ∈ b3 := by
          intro k v hk hv
          have key : ∀ s, k = s → s ∉ ["match", "not-match"] → False := by
            rintro s rfl h
            simp only [List.mem_cons, List.not_mem_nil, or_false] at h
            exact h hk
          rcases hab1 _ hv with h | h
          · rcases hab2 _ h with h | h
            · rcases hab3 _ h with h | h
              · exact h
              · exact (key _ h.1 (by decide)).elim
            · exact (key _ h.1 (by decide)).elim
          · exact (key _ h.1 (by decide)).elim
        have m1 := up _ _ (.inl rfl) (mem_of_dget g1)
        have m2 := up _ _ (.inr rfl) (mem_of_dget g2)
        cases hb with
        | @group _ _ _ z _ _ _ h1 h2 hpm =>
          have hlast : ∀ k v, (k, v) ∈ z → k ∈ ["any-variant", "all-variants", "only-variants"] := by
            intro k v hk
            obtain ⟨r, hr, _⟩ := attrs_inv h2 rfl k v hk
            simp only [attrsOf, Pat.optional, List.mem_append, List.mem_singleton, Prod.mk.injEq, List.not_mem_nil, or_false] at hr
            simp only [List.mem_cons, List.not_mem_nil, or_false]
            tauto
          have m1 := (List.mem_append.1 (hpm.mem_iff.1 m1)).resolve_right (fun h => absurd (hlast _ _ h) (by decide))
          have m2 := (List.mem_append.1 (hpm.mem_iff.1 m2)).resolve_right (fun h => absurd (hlast _ _ h) (by decide))
          cases h1 with
          | left h1 =>
            cases h1 with
            | left h1 => cases h1 with | attr _ => simp at m2
            | right h1 => cases h1 with | attr _ => simp at m1
          | right h1 => cases h1; cases m1
      obtain ⟨t', a, s, ns⟩ := n
      simp only [Node.tag, Node.attrs, Node.children] at *
      subst ht hch
      exact .action hnot

/-! ## References to classes -/

theorem match_kids {n : Node} {q : Pat} (hq : q ∈ matchPats) (h : Matches x defs q [] [.node n]) :
    ∀ m ∈ n.children, ∃ q ∈ matchPats, Matches x defs q [] [.node m] := by
  have leaf : ∀ {t : String} {p : Pat}, Matches x defs (.elem t p) [] [.node n] → direct p = true → elemsOf p = [] →
      ∀ m ∈ n.children, ∃ q ∈ matchPats, Matches x defs q [] [.node m] := by
    intro t p h h2 h3
    obtain ⟨c, hc, hm⟩ := elem_inv h
    rw [leaf_inv hc hm h2 h3]
    simp
  simp only [matchPats, List.mem_append, List.mem_cons, List.not_mem_nil, or_false] at hq
  rcases hq with (rfl | rfl | rfl | rfl | rfl | rfl | rfl | rfl | rfl) | hq
  · exact leaf h rfl rfl
  · exact leaf h rfl rfl
  · exact leaf h rfl rfl
  · exact leaf h rfl rfl
  · exact leaf h rfl rfl
  · obtain ⟨c, hc, hm⟩ := elem_inv h
    obtain ⟨b1, hb, -⟩ := peel hm
    obtain ⟨b2, hb, -⟩ := peel hb
    exact (kids_of hc hb (.group of_choice (.plus of_choice))).2
  · obtain ⟨c, hc, hm⟩ := elem_inv h
    obtain ⟨b1, hb, -⟩ := peel hm
    exact (kids_of hc hb of_nonpos).2
  · obtain ⟨c, hc, hm⟩ := elem_inv h
    obtain ⟨b1, hb, -⟩ := peel hm
    exact (kids_of hc hb of_nonpos).2
  · obtain ⟨c, hc, hm⟩ := elem_inv h
    obtain ⟨b1, hb, -⟩ := peel hm
    obtain ⟨b2, hb, -⟩ := peel hb
    obtain ⟨b3, hb, -⟩ := peel hb
    cases hb with
    | left hb =>
      cases hb with
      | attr _ =>
        intro m hm
        exact absurd (contents_children hc m hm) (by simp)
    | right hb => exact (kids_of hc hb of_operators).2
  · by_cases ho : q ∈ opPats
    · intro m hm
      obtain ⟨r, hr, hh⟩ := (op_says ho h).kids m hm
      exact ⟨r, List.mem_append_right _ hr, hh⟩
    · have : q = classInvocationP ∨ q = classDeclarationP := by
        simp only [classPats, opPats, List.mem_cons, List.not_mem_nil, or_false] at hq ho
        tauto
      rcases this with rfl | rfl
      · exact leaf h rfl rfl
      · exact leaf h rfl rfl

theorem item_kids {n : Node} (h : Matches x defs C147.ruleItemP [] [.node n]) :
    ∀ m ∈ n.children, ∃ q ∈ matchPats, Matches x defs q [] [.node m] := by
  cases h with
  | left h =>
    cases h with
    | left h => exact match_kids (by simp [matchPats, classPats]) h
    | right h =>
      obtain ⟨-, hk⟩ := of_inv h (of_ops (L := matchPats) (fun q hq => List.mem_append_right _ (by
        simp only [opPats, List.mem_cons, List.not_mem_nil, or_false] at hq
        simp only [classPats, List.mem_cons, List.not_mem_nil, or_false]
        tauto)))
      obtain ⟨n', e, q, hq, hh⟩ := hk (.node n) (by simp)
      cases e
      exact match_kids hq hh
  | right h =>
    cases h with
    | left h =>
      obtain ⟨c, hc, hm⟩ := elem_inv h
      obtain ⟨b1, hb, -⟩ := peel_req hm
      obtain ⟨b2, hb, -⟩ := peel hb
      obtain ⟨b3, hb, -⟩ := peel hb
      exact (kids_of hc hb of_operators).2
    | right h =>
      obtain ⟨c, hc, hm⟩ := elem_inv h
      rw [leaf_inv hc hm rfl rfl]
      simp

theorem below_pats : ∀ (k : Nat) {n : Node}, sizeOf n < k → (∀ m ∈ n.children, ∃ q ∈ matchPats, Matches x defs q [] [.node m]) →
    ∀ m ∈ below n, ∃ q ∈ matchPats, Matches x defs q [] [.node m] := by
  intro k
  induction k with
  | zero => intro n h; omega
  | succ k ih =>
    intro n hk hc m hm
    have : ∃ c ∈ n.children, m ∈ c :: below c := by
      obtain ⟨t, a, s, ns⟩ := n
      exact mem_belowAll.1 hm
    obtain ⟨c, hcm, hm⟩ := this
    obtain ⟨q, hq, hh⟩ := hc c hcm
    rcases List.mem_cons.1 hm with rfl | hm
    · exact ⟨q, hq, hh⟩
    · exact ih (by have := size_child hcm; omega) (match_kids hq hh) m hm

theorem go_head (p : Char → Bool) (e : Char) : ∀ (r cur : List Char), (∃ u, cur.reverse = e :: u) →
    ∃ v ws, wordsGo p cur r = (e :: v) :: ws
  | [], cur, ⟨u, hu⟩ => by
    have hne : cur ≠ [] := by rintro rfl; simp at hu
    simp only [wordsGo, if_neg hne, hu]
    exact ⟨u, [], rfl⟩
  | c :: r, cur, ⟨u, hu⟩ => by
    have hne : cur ≠ [] := by rintro rfl; simp at hu
    simp only [wordsGo, if_neg hne]
    split
    · rw [hu]; exact ⟨u, _, rfl⟩
    · exact go_head p e r (c :: cur) ⟨u ++ [c], by simp [hu]⟩

/-- No reference is to the internal name of a tag. -/
theorem no_tag {b t : String} (h : Matches x D classRefP [] [.txt b]) (hs : x.start '#' = false) : b ≠ Cls.tagPrefix ++ t := by
  rintro rfl
  unfold classRefP at h
  cases h with
  | data h _ _ =>
    have h : NcName x (collapse (Cls.tagPrefix ++ t)) := h
    have he : (Cls.tagPrefix ++ t).toList = '#' :: ("__internal_tag_".toList ++ t.toList) := by
      rw [String.toList_append]; rfl
    have : ∃ v ws, words (Cls.tagPrefix ++ t) = ('#' :: v) :: ws := by
      unfold words
      rw [he, wordsGo, if_neg (by decide)]
      exact go_head _ _ _ _ ⟨[], rfl⟩
    obtain ⟨v, ws, hw⟩ := this
    unfold collapse at h
    rw [hw, C147.join_cons] at h
    have h1 := h.1
    rw [hs] at h1
    cases h1

theorem class_ref {m : Node} {q : Pat} (hq : q ∈ matchPats) (h : Matches x defs q [] [.node m]) (ht : m.tag = "class") {b : String}
    (hb : dget m.attrs "by-ref" = some b) : Matches x defs classRefP [] [.txt b] := by
  have not : ∀ {t : String} {p : Pat}, Matches x defs (.elem t p) [] [.node m] → t = "class" := fun h => (tag_of h).symm.trans ht
  simp only [matchPats, List.mem_append, List.mem_cons, List.not_mem_nil, or_false] at hq
  rcases hq with (rfl | rfl | rfl | rfl | rfl | rfl | rfl | rfl | rfl) | hq
  iterate 9 exact absurd (not h) (by decide)
  simp only [classPats, List.mem_cons, List.not_mem_nil, or_false] at hq
  rcases hq with rfl | rfl | rfl | rfl | rfl | rfl | rfl
  iterate 5 exact absurd (not h) (by decide)
  · obtain ⟨c, hc, hm⟩ := elem_inv h
    obtain ⟨r, hr, hh⟩ := attrs_inv hm rfl _ b (mem_of_dget hb)
    simp [attrsOf, Pat.optional] at hr
    rw [hr] at hh
    exact hh
  · rw [(decl_shape h).2.2] at hb
    cases hb

theorem readable_tags {K K' R : List String} {n : Node} (hs : x.start '#' = false) (h : Matches x defs C147.ruleItemP [] [.node n])
    (hK : ∀ b ∈ K, ∃ t, b = Cls.tagPrefix ++ t) : Readable (K ++ K') R n ↔ Readable K' R n := by
  constructor
  · rintro ⟨h1, h2⟩
    refine ⟨h1, fun m hm => ?_⟩
    obtain ⟨g1, g2, g3⟩ := h2 m hm
    refine ⟨g1, fun ht b hb => ⟨?_, (g2 ht b hb).2⟩, g3⟩
    rcases List.mem_append.1 (g2 ht b hb).1 with h4 | h4
    · obtain ⟨t, rfl⟩ := hK _ h4
      obtain ⟨q, hq, hh⟩ := below_pats (sizeOf n + 1) (by omega) (item_kids h) m hm
      exact absurd rfl (no_tag (class_ref hq hh ht hb) hs)
    · exact h4
  · rintro ⟨h1, h2⟩
    refine ⟨h1, fun m hm => ?_⟩
    obtain ⟨g1, g2, g3⟩ := h2 m hm
    exact ⟨g1, fun ht b hb => ⟨List.mem_append_right _ (g2 ht b hb).1, (g2 ht b hb).2⟩, g3⟩

/-! ## Documents -/

/-- What is needed to know what a document says: digits are those of ASCII, names do not begin with `#`; lists of words are
separated by single spaces, and counts are written without white space. -/
structure Tidy (lx : Lex) (d : Doc) : Prop where
  digits : AsciiDigits lx
  start : lx.start '#' = false
  data : ∀ e ∈ d.data, C105.ElemTidy e
  counts : ∀ m ∈ belowAll (d.rules.getD []), PlainCount m.attrs

/-- **C149** Without Unicode database and `force`, the section `<rules>` of a valid document is read exactly when classes,
combinations of classes and rules at its top have a name, elements inside have none, and each reference is to a class or rule
declared before. -/
theorem rules_read {lx : Lex} {R : Reader} {d : Doc} {ms : List MElem} (hv : Valid lx R.x d) (hm : d.metaE = some ms)
    (ht : Tidy lx d) (hdb : R.db = none) (hf : R.force = false) (g : LGR) :
    (parseRules R.parser (newRules g, {}) (d.rules.getD [])).2 = .ok () ↔ AllReadable [] [] (d.rules.getD []) := by
  have hp := (C147.parts_of hv hm).rules
  have hshape : ∀ n ∈ d.rules.getD [], ItemShape n := by
    intro n hn
    refine item_shape ht.digits (hp n hn) (fun m hm => ht.counts m ?_)
    exact mem_belowAll.2 ⟨n, hn, List.mem_cons_of_mem _ hm⟩
  have hK : ∀ b, b ∈ (tagClasses g).map Prod.fst ↔ (dget (newRules g, ({} : RState)).1.rs.lk.classes b).isSome = true := by
    intro b
    rw [dget_isSome]
    rfl
  rw [section_iff (P := R.parser) (by simp [Reader.parser, hdb]) hf _ hK (R := []) (fun b => by simp [newRules, dget]) hshape]
  have hpre : ∀ b ∈ (tagClasses g).map Prod.fst, ∃ t, b = Cls.tagPrefix ++ t := by
    intro b hb
    simp only [tagClasses, List.map_map, List.mem_map] at hb
    obtain ⟨p, -, rfl⟩ := hb
    exact ⟨p.1, rfl⟩
  constructor
  · intro h A n B he
    exact (readable_tags ht.start (hp n (by rw [he]; simp)) hpre).1 (h A n B he)
  · intro h A n B he
    exact (readable_tags ht.start (hp n (by rw [he]; simp)) hpre).2 (h A n B he)

/-- The references of a document, without check of IDNA validity. -/
def cited (ms : List MElem) : C105.Given := ⟨fun r => r ∈ ms.flatMap C148.idsOf, fun _ => True⟩

/-- What a document has to be like, besides what the schema says. -/
structure Sound (c : MetaXml.Ctx) (ms : List MElem) (d : Doc) : Prop where
  meta_ : ∀ e ∈ ms, C148.Fine c e
  ids : (ms.flatMap C148.idsOf).Nodup
  data : ∃ is, C105.Means d.data is ∧ (∀ i ∈ is, (cited ms).Fine i) ∧ C105.Apart is
  rules : AllReadable [] [] (d.rules.getD [])

/-- **C149** Without Unicode database and `force`, exactly the sound documents are read, of those which are valid for the schema. -/
theorem document_read {lx : Lex} {R : Reader} {d : Doc} {ms : List MElem} (hv : Valid lx R.x d) (hm : d.metaE = some ms)
    (ht : Tidy lx d) (hdb : R.db = none) (hf : R.force = false) (hi : C61.ReadsDigits R.x.pyInt) (hd : R.x.digit '.' = false)
    (cs : Rfc7940.Results) : (∃ g, (parseDoc R cs d).2 = .ok (some g)) ↔ Sound R.x ms d := by
  obtain ⟨h1, h2⟩ := C148.valid_meta_means hv hm hi hd cs
  unfold parseDoc
  rw [hm, hf]
  dsimp only
  cases hp : parseMeta R.x false cs ms with
  | mk s o =>
    rw [hp] at h1 h2
    cases o with
    | error e =>
      simp only [reduceCtorEq, exists_false, false_iff] at h1 ⊢
      exact fun h => h1 ⟨h.meta_, h.ids⟩
    | ok u =>
      dsimp only
      obtain ⟨h3, h4⟩ := h1.1 rfl
      have hrefs := (h2 rfl).refs
      obtain ⟨h5, -⟩ := C105.data_means_partial R.db R.strict (managerOf s.md) s.checks ht.data
      have hgiven : C105.given R.db R.strict (managerOf s.md) = cited ms := by
        unfold C105.given cited
        rw [hdb]
        congr 1
        · funext r
          rw [dget_isSome]
          dsimp only [managerOf]
          have hk : s.md.refs.map Prod.fst = ms.flatMap C148.idsOf := by
            rw [hrefs, List.map_flatMap]
            congr 1
            funext e
            unfold C148.refsOf C148.idsOf
            split
            · rw [List.map_map]; rfl
            · rfl
          rw [← hk, List.map_map]
          rfl
        · funext _
          simp
      rw [hgiven] at h5
      have hl : newLgr R s.md = { refs := managerOf s.md, raiseInvalid := R.strict } := rfl
      rw [hl]
      cases hq : parseData R.db false { lgr := { refs := managerOf s.md, raiseInvalid := R.strict }, checks := s.checks } d.data with
      | mk p o =>
        rw [hq] at h5
        cases o with
        | error e =>
          simp only [reduceCtorEq, exists_false, false_iff] at h5 ⊢
          exact fun h => h5 h.data
        | ok u =>
          dsimp only
          have h6 := rules_read hv hm ht hdb hf p.lgr
          cases hr : parseRules R.parser (newRules p.lgr, {}) (d.rules.getD []) with
          | mk t o =>
            rw [hr] at h6
            obtain ⟨r, t⟩ := t
            cases o with
            | error e =>
              simp only [reduceCtorEq, exists_false, false_iff] at h6 ⊢
              exact fun h => h6 h.rules
            | ok u => exact ⟨fun _ => ⟨h3, h4, h5.1 rfl, h6.1 rfl⟩, fun _ => ⟨_, rfl⟩⟩

/-! ## Examples -/

/-- Digits of ASCII; names do not begin with `#`. -/
def lex1 : Lex :=
  { digit := fun c => decide ('0' ≤ c ∧ c ≤ '9'), start := fun c => decide (c ≠ '#'), name := fun _ => true
    ascii := fun _ h1 h2 => decide_eq_true ⟨h1, h2⟩ }

/-- A class with the code points 0061 and 0063 to 0065. -/
def classNode : Node := .mk "class" [("name", "c")] (some "0061 0063-0065") []

/-- A rule: one or more code points of the class, or anything but them. -/
def ruleNode : Node :=
  .mk "rule" [("name", "r")] none [.mk "class" [("by-ref", "c"), ("count", "1+")] none [],
    .mk "complement" [] none [.mk "class" [("by-ref", "c")] none []]]

/-- A document with these in some order. -/
def docOf (ns : List Node) : Doc :=
  { metaE := some [{ tag := "unicode-version", text := .plain "6.3.0" }], data := [{ tag := "char", attrs := [("cp", "0061")] }]
    rules := some ns }

theorem name_ok {s : String} {c : Char} {w : List Char} (h : collapse s = c :: w) (hc : c ≠ '#') (t : Ty) (ht : t = .ID ∨ t = .IDREF) :
    Matches lex1 D (.data t none 0) [] [.txt s] := by
  refine .data ?_ (by rintro r ⟨⟩) (Nat.zero_le _)
  have : NcName lex1 (collapse s) := by
    rw [h]
    exact ⟨decide_eq_true hc, fun _ _ => rfl⟩
  rcases ht with rfl | rfl <;> exact this

theorem class_matches : Matches lex1 defs C147.ruleItemP [] [.node classNode] := by
  refine .left (.left (C147.elem_text (a := [("name", "c")]) (o := some "0061 0063-0065") ?_))
  refine .group (a := [("name", "c")]) (b := []) (c := []) (.left (.attr (name_ok (s := "c") (c := 'c') (w := []) (by decide) (by decide) .ID (.inl rfl)))) ?_ (.refl _)
  refine C147.group_attrs (a := []) (.right .empty) (C147.group_attrs (a := []) (.right .empty) (C147.group_attrs (a := []) (.right .empty) (.right (.right ?_))))
  refine .data trivial ?_ (Nat.zero_le _)
  rintro r ⟨⟩
  have hc : collapse ((some "0061 0063-0065" : Option String).getD "") = "0061 0063-0065".toList := by decide
  rw [hc]
  have hh : ∀ w : List Char, HexWord w → (Schema.Re.rep (.cls [('0', '9'), ('A', 'F')]) 4 6).Is lex1 w := fun w h => C147.rep_iff.2 h
  have h1 : HexWord "0061".toList := C147.cpToStr_hexword (n := 0x61) (by decide)
  have h2 : HexWord "0063".toList := C147.cpToStr_hexword (n := 0x63) (by decide)
  have h3 : HexWord "0065".toList := C147.cpToStr_hexword (n := 0x65) (by decide)
  refine ⟨[], "0061 0063-0065".toList, rfl, ⟨[], rfl, by simp⟩, "0061".toList, " 0063-0065".toList, rfl, .inl (hh _ h1),
    " 0063-0065".toList, [], by simp, ⟨[" 0063-0065".toList], by simp, ?_⟩, ⟨[], rfl, by simp⟩⟩
  intro w hw
  simp only [List.mem_singleton] at hw
  subst hw
  exact ⟨[' '], "0063-0065".toList, rfl, ⟨' ', rfl, _, List.mem_singleton.2 rfl, by decide, by decide⟩,
    .inr ⟨"0063".toList, "-0065".toList, rfl, hh _ h2, ['-'], "0065".toList, rfl,
      ⟨'-', rfl, _, List.mem_singleton.2 rfl, by decide, by decide⟩, hh _ h3⟩⟩

theorem rule_matches : Matches lex1 defs C147.ruleItemP [] [.node ruleNode] := by
  have hc : Matches lex1 defs (.attr "by-ref" classRefP) [("by-ref", "c")] [] :=
    .attr (name_ok (s := "c") (c := 'c') (w := []) (by decide) (by decide) .IDREF (.inr rfl))
  have h1 : Matches lex1 defs (.ref "class-or-set-operator-nested") [] [.node (.mk "class" [("by-ref", "c"), ("count", "1+")] none [])] := by
    refine .ref (.right (.left (C147.elem_nodes (ns := []) ?_)))
    refine .group (a := [("by-ref", "c")]) (b := [("count", "1+")]) (c := []) hc ?_ (.refl _)
    refine .group (a := [("count", "1+")]) (b := []) (c := []) (.left (.attr ?_)) (.right .empty) (.refl _)
    refine .data trivial ?_ (Nat.zero_le _)
    rintro r ⟨⟩
    have : collapse "1+" = ['1', '+'] := by decide
    rw [this]
    exact ⟨['1'], ['+'], rfl, ⟨[['1']], by simp, by simp, by simpa using ⟨'1', rfl, by decide⟩⟩,
      .inr (.inl ⟨'+', rfl, _, List.mem_singleton.2 rfl, by decide, by decide⟩)⟩
  have h2 : Matches lex1 defs (.ref "class-or-set-operator-nested") []
      [.node (.mk "complement" [] none [.mk "class" [("by-ref", "c")] none []])] := by
    refine .ref (.left (.ref (.left (.ref (C147.elem_nodes ?_)))))
    refine C147.group_attrs (a := []) (.right .empty) (C147.group_attrs (a := []) (.right .empty) (C147.group_attrs (a := []) (.right .empty)
      (C147.group_attrs (a := []) (.right .empty) (.ref (.right (.left (C147.elem_nodes (ns := []) ?_)))))))
    exact .group (a := [("by-ref", "c")]) (b := []) (c := []) hc (C147.group_attrs (a := []) (.right .empty) (.right .empty)) (.refl _)
  refine .right (.left (C147.elem_nodes ?_))
  refine .group (a := [("name", "r")]) (b := []) (c := []) (.attr (name_ok (s := "r") (c := 'r') (w := []) (by decide) (by decide) .ID (.inl rfl)))
    ?_ (.refl _)
  refine C147.group_attrs (a := []) (.right .empty) (C147.group_attrs (a := []) (.right .empty) (.ref (.left (.ref ?_))))
  refine C147.group_content (c := []) (.right .empty) ?_
  refine C147.group_content (c := [Node.mk "class" [("by-ref", "c"), ("count", "1+")] none [],
    .mk "complement" [] none [.mk "class" [("by-ref", "c")] none []]].map Item.node) (d := []) (C147.star_nodes _ ?_) (.right .empty)
  intro n hn
  simp only [List.mem_cons, List.not_mem_nil, or_false] at hn
  rcases hn with rfl | rfl
  · exact .right (.right (.right (.left h1)))
  · exact .right (.right (.right (.left h2)))

theorem doc_valid (m : MetaXml.Ctx) {ns : List Node} (h : ∀ n ∈ ns, n = classNode ∨ n = ruleNode) (hd : (idsAll ns).Nodup) :
    Valid lex1 m (docOf ns) := by
  refine C147.valid_of (C147.meta0_matches m) (C147.elem_nodes (.one ?_)) ?_ hd
  · refine .left (C147.elem_nodes (ns := []) ?_)
    refine .group (a := [("cp", "0061")]) (b := []) (c := []) (.attr (.left (.data trivial ?_ (Nat.zero_le _)))) ?_ (.refl _)
    · rintro r ⟨⟩
      have : collapse "0061" = "0061".toList := by decide
      rw [this]
      exact C147.rep_iff.2 (C147.cpToStr_hexword (n := 0x61) (by decide))
    · exact C147.group_attrs (a := []) (.right .empty) (C147.group_attrs (a := []) (.right .empty) (C147.group_attrs (a := []) (.right .empty)
        (C147.group_attrs (a := []) (.right .empty) (C147.group_attrs (a := []) (.right .empty) (.right .empty)))))
  · intro n hn
    rcases h n hn with rfl | rfl
    · exact class_matches
    · exact rule_matches

theorem x0_digits : C61.ReadsDigits C99.x0.pyInt := by
  intro ds hne hd
  have hm : ∀ ds : List Nat, (∀ d ∈ ds, d < 10) → (ds.map digitChar).mapM hexVal = some ds := by
    intro ds
    induction ds with
    | nil => intro _; rfl
    | cons d ds ih =>
      intro h
      have hd : hexVal (digitChar d) = some d := by
        have := h d (by simp)
        interval_cases d <;> rfl
      rw [List.map_cons, List.mapM_cons, hd, ih (fun e he => h e (List.mem_cons_of_mem _ he))]
      rfl
  show (if ds.map digitChar = [] then none else ((ds.map digitChar).mapM hexVal).map _) = _
  rw [if_neg (by simpa using hne), hm ds hd]
  rfl

theorem doc_tidy {ns : List Node} (h : ∀ n ∈ ns, n = classNode ∨ n = ruleNode) : Tidy lex1 (docOf ns) := by
  refine ⟨fun c hc => of_decide_eq_true hc, by decide, by
    show ∀ e ∈ [({ tag := "char", attrs := [("cp", "0061")] } : Elem)], C105.ElemTidy e
    decide +kernel, ?_⟩
  intro m hm
  obtain ⟨n, hn, hm⟩ := mem_belowAll.1 hm
  have all : ∀ n, n = classNode ∨ n = ruleNode → ∀ m ∈ n :: below n, dget m.attrs "count" = none ∨ dget m.attrs "count" = some "1+" := by
    rintro n (rfl | rfl) <;> decide +kernel
  intro s hs
  rcases all n (h n hn) m hm with h | h
  · rw [h] at hs; cases hs
  · rw [h] at hs; cases hs; decide

/-- The document with the class first is read, so it is sound. -/
example : Valid lex1 C104.reader0.x (docOf [classNode, ruleNode]) ∧ Tidy lex1 (docOf [classNode, ruleNode]) ∧ C104.reader0.db = none ∧
    C104.reader0.force = false ∧ C61.ReadsDigits C104.reader0.x.pyInt ∧ C104.reader0.x.digit '.' = false ∧
    ∃ g, (parseDoc C104.reader0 [] (docOf [classNode, ruleNode])).2 = .ok (some g) := by
  refine ⟨doc_valid _ (by simp) (by decide +kernel), doc_tidy (by simp), rfl, rfl, x0_digits, rfl, ?_⟩
  have h : (match (parseDoc C104.reader0 [] (docOf [classNode, ruleNode])).2 with
    | .ok (some _) => true
    | _ => false) = true := by decide +kernel
  cases hp : (parseDoc C104.reader0 [] (docOf [classNode, ruleNode])).2 with
  | error e => rw [hp] at h; cases h
  | ok o =>
    cases o with
    | none => rw [hp] at h; cases h
    | some g => exact ⟨g, rfl⟩

/-- The document with the rule first is valid for the schema, too, but not read: the order of declarations matters. -/
theorem forward_reference : Valid lex1 C104.reader0.x (docOf [ruleNode, classNode]) ∧ Tidy lex1 (docOf [ruleNode, classNode]) ∧
    (∀ cs g, (parseDoc C104.reader0 cs (docOf [ruleNode, classNode])).2 ≠ .ok (some g)) ∧
    AllReadable [] [] [classNode, ruleNode] ∧ ¬ AllReadable [] [] [ruleNode, classNode] := by
  have hv := doc_valid C104.reader0.x (ns := [ruleNode, classNode]) (by simp) (by decide +kernel)
  have hv' := doc_valid C104.reader0.x (ns := [classNode, ruleNode]) (by simp) (by decide +kernel)
  have ht := doc_tidy (ns := [ruleNode, classNode]) (by simp)
  have ht' := doc_tidy (ns := [classNode, ruleNode]) (by simp)
  have hn : ¬ AllReadable [] [] [ruleNode, classNode] := by
    intro h
    have := (rules_read hv rfl ht rfl rfl {}).2 h
    revert this
    show (parseRules C104.reader0.parser (newRules {}, {}) [ruleNode, classNode]).2 ≠ .ok ()
    decide +kernel
  refine ⟨hv, ht, ?_, ?_, hn⟩
  · intro cs g h
    exact hn ((document_read hv rfl ht rfl rfl x0_digits rfl cs).1 ⟨g, h⟩).rules
  · refine (rules_read hv' rfl ht' rfl rfl {}).1 ?_
    show (parseRules C104.reader0.parser (newRules {}, {}) [classNode, ruleNode]).2 = .ok ()
    decide +kernel

end Lgr.Props.C149

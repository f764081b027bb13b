import Verif.Props.Schema
import Verif.Props.Xml
import Verif.Props.ClassXml
import Mathlib.Data.Nat.Digits.Lemmas

/-!
# C147: texts which the schema accepts
-/

namespace Lgr.Props.C147
open Lgr Xml Text RulesXml Schema C34

variable {x : Lex} {D : String → Pat}

/-! ## Words -/

theorem words_append (p : Char → Bool) {d : Char} (hd : p d = true) (b : List Char) :
    ∀ a cur : List Char, wordsGo p cur (a ++ d :: b) = wordsGo p cur a ++ wordsGo p [] b
  | [], cur => by
    simp only [List.nil_append, wordsGo, hd, if_true]
    split <;> rfl
  | c :: a, cur => by
    simp only [List.cons_append, wordsGo]
    split
    · split
      · exact words_append p hd b a []
      · rw [words_append p hd b a []]; rfl
    · exact words_append p hd b a (c :: cur)

theorem words_join (l : List (List Char)) : wordsGo blankChar [] (join ' ' l) = l.flatMap (wordsGo blankChar []) := by
  have hb : blankChar ' ' = true := by decide
  induction l with
  | nil => rfl
  | cons w l ih =>
    cases l with
    | nil => simp [join]
    | cons v l =>
      rw [join, words_append _ hb, ih]
      rfl

theorem words_plain (p : Char → Bool) : ∀ (w cur : List Char), (∀ c ∈ w, p c = false) → cur.reverse ++ w ≠ [] →
    wordsGo p cur w = [cur.reverse ++ w]
  | [], cur, _, h => by
    simp only [List.append_nil, ne_eq, List.reverse_eq_nil_iff] at h
    simp [wordsGo, h]
  | c :: w, cur, hp, _ => by
    simp only [wordsGo, hp c (by simp), Bool.false_eq_true, if_false]
    rw [words_plain p w (c :: cur) (fun d hd => hp d (by simp [hd])) (by simp)]
    simp

theorem word_props (p : Char → Bool) : ∀ (s cur : List Char), (∀ c ∈ cur, p c = false) →
    ∀ w ∈ wordsGo p cur s, w ≠ [] ∧ ∀ c ∈ w, p c = false
  | [], cur, hc, w, hw => by
    simp only [wordsGo] at hw
    split at hw
    · simp at hw
    · rename_i hne
      simp only [List.mem_singleton] at hw
      subst hw
      exact ⟨by simpa using hne, fun c h => hc c (by simpa using h)⟩
  | c :: s, cur, hc, w, hw => by
    simp only [wordsGo] at hw
    split at hw
    · split at hw
      · exact word_props p s [] (by simp) w hw
      · rename_i hne
        rcases List.mem_cons.1 hw with rfl | hw
        · exact ⟨by simpa using hne, fun c h => hc c (by simpa using h)⟩
        · exact word_props p s [] (by simp) w hw
    · rename_i hp
      refine word_props p s (c :: cur) ?_ w hw
      intro d hd
      rcases List.mem_cons.1 hd with rfl | hd
      · simpa using hp
      · exact hc d hd

theorem mem_words (p : Char → Bool) {c : Char} (hp : p c = false) : ∀ (s cur : List Char), c ∈ s ∨ c ∈ cur →
    ∃ w ∈ wordsGo p cur s, c ∈ w
  | [], cur, h => by
    have h : c ∈ cur := by simpa using h
    refine ⟨cur.reverse, ?_, by simpa using h⟩
    simp [wordsGo, List.ne_nil_of_mem h]
  | d :: s, cur, h => by
    simp only [wordsGo]
    by_cases hd : p d = true
    · have hne : c ≠ d := by rintro rfl; rw [hp] at hd; cases hd
      have h : c ∈ s ∨ c ∈ cur := by simpa [hne] using h
      rw [if_pos hd]
      by_cases hcur : cur = []
      · rw [if_pos hcur]
        exact mem_words p hp s [] (by simpa [hcur] using h)
      · rw [if_neg hcur]
        rcases h with h | h
        · obtain ⟨w, h1, h2⟩ := mem_words p hp s [] (.inl h)
          exact ⟨w, by simp [h1], h2⟩
        · exact ⟨cur.reverse, by simp, by simpa using h⟩
    · rw [if_neg hd]
      refine mem_words p hp s (d :: cur) ?_
      rcases h with h | h
      · rcases List.mem_cons.1 h with rfl | h
        · simp
        · exact .inl h
      · simp [h]

theorem split_words : ∀ (s cur : List Char), (∀ c ∈ s, isSpace c = blankChar c) →
    splitWs.go cur s = wordsGo blankChar cur s
  | [], cur, _ => rfl
  | c :: s, cur, h => by
    simp only [splitWs.go, wordsGo, h c (by simp)]
    rw [split_words s [] (fun d hd => h d (by simp [hd])), split_words s (c :: cur) (fun d hd => h d (by simp [hd]))]

theorem mem_join_inv {sep d : Char} : ∀ {l : List (List Char)}, d ∈ join sep l → d = sep ∨ ∃ w ∈ l, d ∈ w
  | [], h => by simp [join] at h
  | [w], h => .inr ⟨w, by simp, by simpa [join] using h⟩
  | w :: v :: l, h => by
    simp only [join, List.mem_append, List.mem_cons] at h
    rcases h with h | h | h
    · exact .inr ⟨w, by simp, h⟩
    · exact .inl h
    · rcases mem_join_inv h with h | ⟨u, h1, h2⟩
      · exact .inl h
      · exact .inr ⟨u, by simp [h1], h2⟩

theorem mem_join' {sep d : Char} : ∀ {l : List (List Char)} {w : List Char}, w ∈ l → d ∈ w → d ∈ join sep l
  | [], _, hw, _ => by simp at hw
  | [a], w, hw, hx => by
    simp only [List.mem_singleton] at hw
    subst hw
    simpa [join] using hx
  | a :: b :: l, w, hw, hx => by
    simp only [join, List.mem_append, List.mem_cons]
    rcases List.mem_cons.1 hw with rfl | hw
    · exact .inl hx
    · exact .inr (.inr (mem_join' hw hx))

/-- A character of a text is white space or left after collapsing. -/
theorem mem_collapse {s : String} {c : Char} (h : c ∈ s.toList) : blankChar c = true ∨ c ∈ collapse s := by
  cases hb : blankChar c with
  | true => exact .inl rfl
  | false =>
    obtain ⟨w, h1, h2⟩ := mem_words blankChar hb s.toList [] (.inl h)
    exact .inr (mem_join' h1 h2)

theorem words_nospace {s : String} : ∀ w ∈ words s, w ≠ [] ∧ ∀ c ∈ w, blankChar c = false :=
  word_props blankChar s.toList [] (by simp)

theorem space_of_not_blank {c : Char} (h : blankChar c = false) : c ≠ ' ' := by
  rintro rfl; revert h; decide

/-- The words of a text are the parts between spaces of the collapsed text. -/
theorem words_eq {s : String} {ws : List (List Char)} (hne : ws ≠ []) (hw : ∀ w ∈ ws, w ≠ [] ∧ ∀ c ∈ w, c ≠ ' ')
    (h : collapse s = join ' ' ws) : words s = ws := by
  unfold collapse at h
  by_cases hz : words s = []
  · rw [hz] at h
    obtain ⟨w, ws, rfl⟩ := List.exists_cons_of_ne_nil hne
    obtain ⟨c, hc⟩ := List.exists_mem_of_ne_nil _ (hw w (by simp)).1
    have : c ∈ join ' ' (w :: ws) := mem_join' (by simp) hc
    rw [← h] at this
    simp [join] at this
  · have h1 := splitOn_join ' ' (words s) hz (fun w h c hc => space_of_not_blank ((words_nospace w h).2 c hc))
    have h2 := splitOn_join ' ' ws hne (fun w h => (hw w h).2)
    rw [← h1, h, h2]

/-! ## Regular expressions -/

/-- The characters of a class. -/
def In (l : List (Char × Char)) (c : Char) : Prop := ∃ p ∈ l, p.1 ≤ c ∧ c ≤ p.2

theorem flatten_single (l : List (Char × Char)) (s : List Char) :
    (∃ ws : List (List Char), s = ws.flatten ∧ ws.length = s.length ∧ ∀ w ∈ ws, (Schema.Re.cls l).Is x w) ↔ ∀ c ∈ s, In l c := by
  constructor
  · rintro ⟨ws, rfl, -, h⟩ c hc
    obtain ⟨w, hw, hc⟩ := List.mem_flatten.1 hc
    obtain ⟨d, rfl, hd⟩ := h w hw
    simp only [List.mem_singleton] at hc
    subst hc
    exact hd
  · intro h
    refine ⟨s.map (fun c => [c]), ?_, by simp, ?_⟩
    · clear h
      induction s with
      | nil => rfl
      | cons c s ih => simp [← ih]
    · intro w hw
      obtain ⟨c, hc, rfl⟩ := List.mem_map.1 hw
      exact ⟨c, rfl, h c hc⟩

theorem flatten_length {l : List (Char × Char)} : ∀ {ws : List (List Char)}, (∀ w ∈ ws, (Schema.Re.cls l).Is x w) →
    ws.flatten.length = ws.length
  | [], _ => rfl
  | w :: ws, h => by
    obtain ⟨c, rfl, -⟩ := h w (by simp)
    simp [flatten_length (fun v hv => h v (List.mem_cons_of_mem _ hv)), Nat.add_comm]

theorem rep_iff {l : List (Char × Char)} {lo hi : Nat} {s : List Char} :
    (Schema.Re.rep (.cls l) lo hi).Is x s ↔ lo ≤ s.length ∧ s.length ≤ hi ∧ ∀ c ∈ s, In l c := by
  constructor
  · rintro ⟨ws, h1, h2, rfl, h⟩
    rw [flatten_length h]
    exact ⟨h1, h2, (flatten_single (x := x) l _).1 ⟨ws, rfl, (flatten_length h).symm, h⟩⟩
  · rintro ⟨h1, h2, h⟩
    obtain ⟨ws, e1, e2, e3⟩ := (flatten_single (x := x) l s).2 h
    exact ⟨ws, by omega, by omega, e1, e3⟩

theorem plus_iff {l : List (Char × Char)} {s : List Char} :
    (Schema.Re.plus (.cls l)).Is x s ↔ s ≠ [] ∧ ∀ c ∈ s, In l c := by
  constructor
  · rintro ⟨ws, h1, rfl, h⟩
    refine ⟨?_, (flatten_single (x := x) l _).1 ⟨ws, rfl, (flatten_length h).symm, h⟩⟩
    intro he
    have := flatten_length h
    rw [he] at this
    exact h1 (List.eq_nil_of_length_eq_zero this.symm)
  · rintro ⟨h1, h⟩
    obtain ⟨ws, e1, e2, e3⟩ := (flatten_single (x := x) l s).2 h
    refine ⟨ws, ?_, e1, e3⟩
    rintro rfl
    exact h1 e1

theorem star_iff {l : List (Char × Char)} {s : List Char} : (Schema.Re.star (.cls l)).Is x s ↔ ∀ c ∈ s, In l c := by
  constructor
  · rintro ⟨ws, rfl, h⟩
    exact (flatten_single (x := x) l _).1 ⟨ws, rfl, (flatten_length h).symm, h⟩
  · intro h
    obtain ⟨ws, e1, -, e3⟩ := (flatten_single (x := x) l s).2 h
    exact ⟨ws, e1, e3⟩

theorem join_cons (u : List Char) : ∀ ws : List (List Char), join ' ' (u :: ws) = u ++ (ws.map (' ' :: ·)).flatten
  | [] => by simp [join]
  | w :: ws => by rw [join, join_cons w ws]; simp

theorem sep_iff {a : Schema.Re} : ∀ {ws : List (List Char)}, (∀ w ∈ ws, (Schema.Re.cat (.cls [(' ', ' ')]) a).Is x w) ↔
    ∃ vs : List (List Char), ws = vs.map (' ' :: ·) ∧ ∀ v ∈ vs, a.Is x v
  | [] => by
    constructor
    · intro _; exact ⟨[], rfl, by simp⟩
    · intro _; simp
  | w :: ws => by
    constructor
    · intro h
      obtain ⟨u, v, rfl, ⟨c, rfl, p, hp, h1, h2⟩, hv⟩ := h w (by simp)
      obtain ⟨vs, rfl, hvs⟩ := sep_iff.1 (fun w hw => h w (List.mem_cons_of_mem _ hw))
      simp only [List.mem_singleton] at hp
      subst hp
      have : c = ' ' := Char.le_antisymm h2 h1
      subst this
      refine ⟨v :: vs, rfl, ?_⟩
      intro u hu
      rcases List.mem_cons.1 hu with rfl | hu
      · exact hv
      · exact hvs u hu
    · rintro ⟨vs, he, hvs⟩ u hu
      rw [he] at hu
      obtain ⟨v, hv, rfl⟩ := List.mem_map.1 hu
      exact ⟨[' '], v, rfl, ⟨' ', rfl, (' ', ' '), by simp, Char.le_refl _, Char.le_refl _⟩, hvs v hv⟩

theorem seq_iff {a : Schema.Re} {s : List Char} : (Schema.Re.cat a (.plus (.cat (.cls [(' ', ' ')]) a))).Is x s ↔
    ∃ w v ws, s = join ' ' (w :: v :: ws) ∧ ∀ u ∈ w :: v :: ws, a.Is x u := by
  constructor
  · rintro ⟨u, t, rfl, hu, ws, hne, rfl, h⟩
    obtain ⟨vs, rfl, hvs⟩ := sep_iff.1 h
    cases vs with
    | nil => exact absurd rfl hne
    | cons v vs =>
      refine ⟨u, v, vs, (join_cons u (v :: vs)).symm, ?_⟩
      intro w hw
      rcases List.mem_cons.1 hw with rfl | hw
      · exact hu
      · exact hvs w hw
  · rintro ⟨w, v, ws, rfl, h⟩
    exact ⟨w, _, join_cons w (v :: ws), h w (by simp), (v :: ws).map (' ' :: ·), by simp, rfl,
      sep_iff.2 ⟨v :: ws, rfl, fun u hu => h u (List.mem_cons_of_mem _ hu)⟩⟩

theorem list_iff {a : Schema.Re} {s : List Char} : (Schema.Re.cat a (.star (.cat (.cls [(' ', ' ')]) a))).Is x s ↔
    ∃ w ws, s = join ' ' (w :: ws) ∧ ∀ u ∈ w :: ws, a.Is x u := by
  constructor
  · rintro ⟨u, t, rfl, hu, ws, rfl, h⟩
    obtain ⟨vs, rfl, hvs⟩ := sep_iff.1 h
    refine ⟨u, vs, (join_cons u vs).symm, ?_⟩
    intro w hw
    rcases List.mem_cons.1 hw with rfl | hw
    · exact hu
    · exact hvs w hw
  · rintro ⟨w, ws, rfl, h⟩
    exact ⟨w, _, join_cons w ws, h w (by simp), ws.map (' ' :: ·), rfl,
      sep_iff.2 ⟨ws, rfl, fun u hu => h u (List.mem_cons_of_mem _ hu)⟩⟩

/-! ## Code points -/

/-- The hexadecimal digits which the schema allows. -/
abbrev hexes : List (Char × Char) := [('0', '9'), ('A', 'F')]

/-- Four to six of them. -/
def HexWord (w : List Char) : Prop := 4 ≤ w.length ∧ w.length ≤ 6 ∧ ∀ c ∈ w, In hexes c

theorem hex_facts {c : Char} (h : In hexes c) : blankChar c = false ∧ isSpace c = false ∧ c ≠ ' ' := by
  obtain ⟨p, hp, h1, h2⟩ := h
  have h1 : p.1.toNat ≤ c.toNat := h1
  have h2 : c.toNat ≤ p.2.toNat := h2
  have hb : 48 ≤ c.toNat ∧ c.toNat ≤ 70 := by
    simp only [hexes, List.mem_cons, List.not_mem_nil, or_false] at hp
    rcases hp with rfl | rfl
    · have e1 : ('0' : Char).toNat = 48 := rfl
      have e2 : ('9' : Char).toNat = 57 := rfl
      dsimp only at h1 h2
      omega
    · have e1 : ('A' : Char).toNat = 65 := rfl
      have e2 : ('F' : Char).toNat = 70 := rfl
      dsimp only at h1 h2
      omega
  refine ⟨?_, ?_, ?_⟩
  · simp only [blankChar, List.mem_cons, List.not_mem_nil, or_false, decide_eq_false_iff_not]
    omega
  · simp only [isSpace, List.mem_cons, List.not_mem_nil, or_false, Bool.or_eq_false_iff, decide_eq_false_iff_not,
      Bool.and_eq_false_iff]
    omega
  · rintro rfl
    have : (' ' : Char).toNat = 32 := rfl
    omega

theorem blank_space {c : Char} (h : blankChar c = true) : isSpace c = true := by
  simp only [blankChar, List.mem_cons, List.not_mem_nil, or_false, decide_eq_true_eq] at h
  simp only [isSpace, List.mem_cons, List.not_mem_nil, or_false, Bool.or_eq_true, decide_eq_true_eq, Bool.and_eq_true]
  omega

theorem hexword_space {w : List Char} (h : HexWord w) : w ≠ [] ∧ ∀ c ∈ w, c ≠ ' ' :=
  ⟨by rintro rfl; exact absurd h.1 (by simp), fun c hc => (hex_facts (h.2.2 c hc)).2.2⟩

/-- What a code point literal is. -/
theorem literal_inv {s : String} (h : Matches x D codePointLiteralP [] [.txt s]) : ∀ w ∈ words s, HexWord w := by
  unfold codePointLiteralP codePointP codePointSequenceP at h
  cases h with
  | left h =>
    cases h with
    | data h1 h2 h3 =>
      have hw : HexWord (collapse s) := rep_iff.1 (h2 _ rfl)
      rw [words_eq (ws := [collapse s]) (by simp) (by simpa using hexword_space hw) rfl]
      simpa using hw
  | right h =>
    cases h with
    | left h =>
      cases h with
      | data h1 h2 h3 =>
        obtain ⟨w, v, ws, he, h⟩ := seq_iff.1 (h2 _ rfl)
        have hw : ∀ u ∈ w :: v :: ws, HexWord u := fun u hu => rep_iff.1 (h u hu)
        rw [words_eq (by simp) (fun u hu => hexword_space (hw u hu)) he]
        exact hw
    | right h =>
      cases h with
      | value h =>
        have h0 : collapse "" = [] := by decide
        rw [h0] at h
        intro w hw
        obtain ⟨c, hc⟩ := List.exists_mem_of_ne_nil _ (words_nospace w hw).1
        have : c ∈ collapse s := mem_join' hw hc
        rw [h] at this
        simp at this

theorem valueOf_lt : ∀ (l : List Nat) (acc : Nat), (∀ d ∈ l, d < 16) →
    l.foldl (fun v d => v * 16 + d) acc < (acc + 1) * 16 ^ l.length
  | [], acc, _ => by simp
  | d :: l, acc, h => by
    have h1 := valueOf_lt l (acc * 16 + d) (fun e he => h e (List.mem_cons_of_mem _ he))
    have h2 := h d (by simp)
    simp only [List.foldl_cons, List.length_cons, Nat.pow_succ]
    calc _ < _ := h1
      _ ≤ ((acc + 1) * 16) * 16 ^ l.length := Nat.mul_le_mul_right _ (by omega)
      _ = _ := by ring

theorem hexVal_lt {c : Char} {d : Nat} (h : hexVal c = some d) : d < 16 := by
  unfold hexVal at h
  have e : ∀ a b : Char, a ≤ b ↔ a.toNat ≤ b.toNat := fun _ _ => Iff.rfl
  simp only [e] at h
  have a1 : ('0' : Char).toNat = 48 := rfl
  have a2 : ('9' : Char).toNat = 57 := rfl
  have a3 : ('A' : Char).toNat = 65 := rfl
  have a4 : ('F' : Char).toNat = 70 := rfl
  have a5 : ('a' : Char).toNat = 97 := rfl
  have a6 : ('f' : Char).toNat = 102 := rfl
  split at h
  · simp only [Option.some.injEq] at h; omega
  · split at h
    · simp only [Option.some.injEq] at h; omega
    · split at h
      · simp only [Option.some.injEq] at h; omega
      · simp at h

theorem mapM_length {α β : Type} {f : α → Option β} : ∀ {l : List α} {m : List β}, l.mapM f = some m →
    m.length = l.length ∧ ∀ b ∈ m, ∃ a ∈ l, f a = some b
  | [], m, h => by
    simp only [List.mapM_nil, Option.pure_def, Option.some.injEq] at h
    subst h; simp
  | a :: l, m, h => by
    rw [List.mapM_cons] at h
    cases ha : f a with
    | none => rw [ha] at h; simp at h
    | some b =>
      cases hl : l.mapM f with
      | none => rw [ha, hl] at h; simp at h
      | some bs =>
        rw [ha, hl] at h
        simp only [Option.bind_eq_bind, Option.bind_some, Option.pure_def, Option.some.injEq] at h
        subst h
        obtain ⟨h1, h2⟩ := mapM_length hl
        refine ⟨by simp [h1], ?_⟩
        intro c hc
        rcases List.mem_cons.1 hc with rfl | hc
        · exact ⟨a, by simp, ha⟩
        · obtain ⟨d, hd, e⟩ := h2 c hc
          exact ⟨d, by simp [hd], e⟩

/-- Six hexadecimal digits. -/
theorem parseHex_le {w : List Char} {n : Nat} (hw : w.length ≤ 6) (h : parseHex w = some n) : n ≤ 0xFFFFFF := by
  unfold parseHex at h
  split at h
  · simp at h
  · cases hm : List.mapM hexVal _ with
    | none => rw [hm] at h; simp at h
    | some l =>
      rw [hm] at h
      simp only [Option.map_some, Option.some.injEq] at h
      obtain ⟨h1, h2⟩ := mapM_length hm
      have := valueOf_lt l 0 (fun d hd => by
        obtain ⟨c, _, hc⟩ := h2 d hd
        exact hexVal_lt hc)
      have hp : 16 ^ l.length ≤ 16 ^ 6 := Nat.pow_le_pow_right (by omega) (by omega)
      unfold valueOf at h
      omega

/-- The code points of a valid attribute. -/
theorem literal_le {s : String} {cp : Seq} (h : Matches x D codePointLiteralP [] [.txt s])
    (hp : parseCpAttr s.toList = some cp) : ∀ n ∈ cp, n ≤ 0xFFFFFF := by
  have hw := literal_inv h
  have hsp : ∀ c ∈ s.toList, isSpace c = blankChar c := by
    intro c hc
    cases hb : blankChar c with
    | true => exact blank_space hb
    | false =>
      obtain ⟨w, h1, h2⟩ := mem_words blankChar hb s.toList [] (.inl hc)
      exact (hex_facts ((hw w h1).2.2 c h2)).2.1
  have hs : splitWs s.toList = words s := split_words s.toList [] hsp
  unfold parseCpAttr at hp
  rw [hs] at hp
  intro n hn
  obtain ⟨w, h1, h2⟩ := (mapM_length hp).2 n hn
  exact parseHex_le (hw w h1).2.1 h2

theorem codePoint_inv {s : String} (h : Matches x D codePointP [] [.txt s]) : HexWord (collapse s) := by
  unfold codePointP at h
  cases h with
  | data h1 h2 h3 => exact rep_iff.1 (h2 _ rfl)

theorem hexVal_space {c : Char} {d : Nat} (h : hexVal c = some d) : blankChar c = false := by
  unfold hexVal at h
  have e : ∀ a b : Char, a ≤ b ↔ a.toNat ≤ b.toNat := fun _ _ => Iff.rfl
  simp only [e] at h
  have a1 : ('0' : Char).toNat = 48 := rfl
  have a3 : ('A' : Char).toNat = 65 := rfl
  have a5 : ('a' : Char).toNat = 97 := rfl
  simp only [blankChar, List.mem_cons, List.not_mem_nil, or_false, decide_eq_false_iff_not]
  split at h
  · omega
  · split at h
    · omega
    · split at h
      · omega
      · simp at h

theorem mapM_mem {α β : Type} {f : α → Option β} : ∀ {l : List α} {m : List β}, l.mapM f = some m →
    ∀ a ∈ l, (f a).isSome = true
  | [], m, _ => by simp
  | a :: l, m, h => by
    rw [List.mapM_cons] at h
    cases ha : f a with
    | none => rw [ha] at h; simp at h
    | some b =>
      cases hl : l.mapM f with
      | none => rw [ha, hl] at h; simp at h
      | some bs =>
        intro c hc
        rcases List.mem_cons.1 hc with rfl | hc
        · rw [ha]; rfl
        · exact mapM_mem hl c hc

theorem codePoint_le {s : String} {n : Nat} (h : Matches x D codePointP [] [.txt s])
    (hp : parseHex s.toList = some n) : n ≤ 0xFFFFFF := by
  have hw := codePoint_inv h
  have hb : ∀ c ∈ s.toList, blankChar c = false := by
    intro c hc
    unfold parseHex at hp
    split at hp
    · simp at hp
    · rename_i hl
      cases hm : List.mapM hexVal s.toList with
      | none => rw [hm] at hp; simp at hp
      | some l =>
        obtain ⟨d, hd⟩ := Option.isSome_iff_exists.1 (mapM_mem hm c hc)
        exact hexVal_space hd
  have hne : s.toList ≠ [] := by
    intro he; rw [he] at hp; simp [parseHex] at hp
  have hc : collapse s = s.toList := by
    unfold collapse words
    rw [words_plain blankChar s.toList [] hb (by simpa using hne)]
    simp [join]
  rw [hc] at hw
  exact parseHex_le hw.2.1 hp

theorem digitChar_hex {d : Nat} (h : d < 16) : In hexes (digitChar d) := by
  have : ∀ d : Fin 16, ('0' ≤ digitChar d ∧ digitChar d ≤ '9') ∨ ('A' ≤ digitChar d ∧ digitChar d ≤ 'F') := by decide
  rcases this ⟨d, h⟩ with h | h
  · exact ⟨('0', '9'), by simp [hexes], h⟩
  · exact ⟨('A', 'F'), by simp [hexes], h⟩

theorem cpToStr_hexword {n : Nat} (h : n ≤ 0xFFFFFF) : HexWord (cpToStr n) := by
  refine ⟨cpToStr_length n, ?_, ?_⟩
  · unfold cpToStr hexStr
    have : (digitsOf 16 n).length ≤ 6 := by
      unfold digitsOf
      split
      · simp
      · rw [List.length_reverse, Nat.digits_length_le_iff (by omega)]
        omega
    simp only [List.length_append, List.length_replicate, List.length_map]
    omega
  · intro c hc
    obtain ⟨l, h1, h2, -⟩ := cpToStr_digits n
    rw [h1] at hc
    obtain ⟨d, hd, rfl⟩ := List.mem_map.1 hc
    exact digitChar_hex (h2 d hd)

theorem collapse_words {l : List (List Char)} (h : ∀ w ∈ l, w ≠ [] ∧ ∀ c ∈ w, blankChar c = false) :
    words (String.ofList (join ' ' l)) = l := by
  unfold words
  rw [String.toList_ofList, words_join]
  induction l with
  | nil => rfl
  | cons w l ih =>
    rw [List.flatMap_cons, ih (fun v hv => h v (List.mem_cons_of_mem _ hv)),
      words_plain blankChar w [] (h w (by simp)).2 (by simpa using (h w (by simp)).1)]
    rfl

theorem hexword_blank {w : List Char} (h : HexWord w) : w ≠ [] ∧ ∀ c ∈ w, blankChar c = false :=
  ⟨(hexword_space h).1, fun c hc => (hex_facts (h.2.2 c hc)).1⟩

theorem collapse_cps {cps : Seq} (h : ∀ n ∈ cps, n ≤ 0xFFFFFF) : collapse (String.ofList (cpAttr cps)) = cpAttr cps := by
  unfold collapse cpAttr
  rw [collapse_words]
  intro w hw
  obtain ⟨n, hn, rfl⟩ := List.mem_map.1 hw
  exact hexword_blank (cpToStr_hexword (h n hn))

/-- What is written for code points is a code point literal. -/
theorem literal_of {cps : Seq} (h : ∀ n ∈ cps, n ≤ 0xFFFFFF) :
    Matches x D codePointLiteralP [] [.txt (String.ofList (cpAttr cps))] := by
  unfold codePointLiteralP codePointP codePointSequenceP
  have hc := collapse_cps h
  match cps, h, hc with
  | [], _, _ => exact .right (.right (.value rfl))
  | [n], h, hc =>
    refine .left (.data trivial ?_ (Nat.zero_le _))
    rintro r ⟨⟩
    rw [hc]
    exact rep_iff.2 (cpToStr_hexword (h n (by simp)))
  | n :: m :: cps, h, hc =>
    refine .right (.left (.data trivial ?_ (Nat.zero_le _)))
    rintro r ⟨⟩
    rw [hc]
    refine seq_iff.2 ⟨cpToStr n, cpToStr m, cps.map cpToStr, rfl, ?_⟩
    intro u hu
    have hu : u ∈ (n :: m :: cps).map cpToStr := hu
    obtain ⟨k, hk, rfl⟩ := List.mem_map.1 hu
    exact rep_iff.2 (cpToStr_hexword (h k hk))

theorem codePoint_of {n : Nat} (h : n ≤ 0xFFFFFF) : Matches x D codePointP [] [.txt (String.ofList (cpToStr n))] := by
  refine .data trivial ?_ (Nat.zero_le _)
  rintro r ⟨⟩
  have : collapse (String.ofList (cpToStr n)) = cpToStr n := collapse_cps (cps := [n]) (by simpa using h)
  rw [this]
  exact rep_iff.2 (cpToStr_hexword h)

/-! ## References -/

/-- The characters of the identifiers of references. -/
abbrev refChars : List (Char × Char) := [('-', '-'), ('_', '_'), ('.', '.'), (':', ':'), ('0', '9'), ('A', 'Z')]

/-- The pattern of the identifier of a reference, `resources/lgr.rng` 743-829. -/
def idP : Pat := .data .token (some (.star (.cls refChars))) 1

theorem refChar_space {c : Char} (h : In refChars c) : c ≠ ' ' := by
  rintro rfl
  obtain ⟨p, hp, h1, h2⟩ := h
  simp only [refChars, List.mem_cons, List.not_mem_nil, or_false] at hp
  rcases hp with rfl | rfl | rfl | rfl | rfl | rfl <;> revert h1 h2 <;> decide

/-- An identifier is one word. -/
theorem id_inv {i : String} (h : Matches x D idP [] [.txt i]) : ∃ w, words i = [w] ∧ w ≠ [] ∧ ∀ c ∈ w, In refChars c := by
  unfold idP at h
  cases h with
  | data h1 h2 h3 =>
    have hs := star_iff.1 (h2 _ rfl)
    have hne : collapse i ≠ [] := by
      intro he; rw [he] at h3; simp at h3
    exact ⟨collapse i, words_eq (by simp) (by simpa using ⟨hne, fun c hc => refChar_space (hs c hc)⟩) rfl, hne, hs⟩

/-- A list of identifiers is a list of references. -/
theorem refs_of {l : List String} (hne : l ≠ []) (h : ∀ i ∈ l, Matches x D idP [] [.txt i]) :
    Matches x D refPatternP [] [.txt (joinS l)] := by
  refine .data trivial ?_ (Nat.zero_le _)
  rintro r ⟨⟩
  have hw : ∃ ws, words (joinS l) = ws ∧ ws ≠ [] ∧ ∀ w ∈ ws, w ≠ [] ∧ ∀ c ∈ w, In refChars c := by
    unfold words joinS
    rw [String.toList_ofList, words_join]
    refine ⟨_, rfl, ?_, ?_⟩
    · obtain ⟨i, l, rfl⟩ := List.exists_cons_of_ne_nil hne
      obtain ⟨w, h1, -⟩ := id_inv (h i (by simp))
      unfold words at h1
      simp [h1]
    · intro w hw
      obtain ⟨u, hu, hw⟩ := List.mem_flatMap.1 hw
      obtain ⟨i, hi, rfl⟩ := List.mem_map.1 hu
      obtain ⟨v, h1, h2⟩ := id_inv (h i hi)
      unfold words at h1
      rw [h1] at hw
      simp only [List.mem_singleton] at hw
      subst hw
      exact h2
  obtain ⟨ws, he, hne, hws⟩ := hw
  unfold collapse
  rw [he]
  obtain ⟨w, ws, rfl⟩ := List.exists_cons_of_ne_nil hne
  exact list_iff.2 ⟨w, ws, rfl, fun u hu => plus_iff.2 (hws u hu)⟩

/-! ## Tags -/

theorem join_split (s : String) : joinS (splitS s) = s := by
  unfold joinS splitS stringToList
  split
  · have hj : join ' ' (splitOn ' ' s.toList) = s.toList := by
      have := C102.go_pieces ' ' s.toList []
      simpa [splitOn] using this
    rw [List.map_map]
    have : (String.toList ∘ String.ofList) = id := by funext l; simp
    rw [this, List.map_id, hj, String.ofList_toList]
  · rename_i h
    have : s.toList = [] := List.eq_nil_of_length_eq_zero (by omega)
    have : s = "" := by rw [← String.ofList_toList (s := s), this]
    subst this
    rfl

/-- A list attribute is written as it was read. -/
theorem list_of {a : XAttrs} {k : String} {P : String → Prop} (h : ∀ v, dget a k = some v → P v) :
    getList a k ≠ [] → P (joinS (getList a k)) := by
  unfold getList
  intro hne
  rw [join_split]
  cases hk : dget a k with
  | none => rw [hk] at hne; exact absurd split_empty hne
  | some v => exact h v hk

end Lgr.Props.C147

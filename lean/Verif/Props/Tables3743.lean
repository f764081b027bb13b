import Verif.Props.Tables

/-!
# C74: tables in the notation of RFC 3743
-/

namespace Lgr.Props.C74
open Lgr Tables Text LGR TableItems TableSyntax Validate

/-- A code point: four to six hexadecimal digits, possibly after `U+`. -/
def CpText (t : List Char) (x : Nat) : Prop :=
  ∃ ds ns, (t = ds ∨ t = 'U' :: '+' :: ds) ∧ 4 ≤ ds.length ∧ ds.length ≤ 6 ∧
    List.Forall₂ (fun c n => hexVal c = some n) ds ns ∧ x = valueOf 16 ns

/-- A sequence: code points separated by single spaces. -/
def SeqText (t : List Char) (s : Seq) : Prop :=
  ∃ ts, ts ≠ [] ∧ List.Forall₂ CpText ts s ∧ t = join ' ' ts

/-- References: none, or digits separated by commas between parentheses. -/
def RefText (digit : Char → Bool) (t : List Char) (refs : List String) : Prop :=
  (t = [] ∧ refs = []) ∨ ∃ cs, cs ≠ [] ∧ (∀ c ∈ cs, digit c = true) ∧
    t = '(' :: (join ',' (cs.map (fun c => [c])) ++ [')']) ∧ refs = cs.map (fun c => String.ofList [c])

/-- A sequence with references. -/
def CharText (digit : Char → Bool) (t : List Char) (p : Seq × List String) : Prop :=
  ∃ a b, SeqText a p.1 ∧ RefText digit b p.2 ∧ t = a ++ b

/-- A sequence with references, possibly after white space. -/
def ItemText (digit : Char → Bool) (t : List Char) (p : Seq × List String) : Prop :=
  ∃ a u, (∀ c ∈ a, isSpace c = true) ∧ CharText digit u p ∧ t = a ++ u

/-- Sequences with references, separated by commas, possibly with white space after the commas. -/
def ListText (digit : Char → Bool) (t : List Char) (l : List (Seq × List String)) : Prop :=
  ∃ ts, List.Forall₂ (ItemText digit) ts l ∧ t = join ',' ts

/-- What a column contains: nothing if it is missing, else a list, possibly between white space. -/
def ColText (digit : Char → Bool) (c : Option (List Char)) (l : List (Seq × List String)) : Prop :=
  (c = none ∧ l = []) ∨ ∃ s t, c = some s ∧ Trimmed s t ∧ ListText digit t l

/-- The line, without white space and comment, is a sequence with references, followed by the columns of
the preferred and of the other variants, after semicolons. -/
def RowText (digit : Char → Bool) (line : List Char) (base : Seq × List String)
    (preferred others : List (Seq × List String)) : Prop :=
  ∃ l b body bt cols, Trimmed line l ∧ Upto '#' l b ∧ Trimmed b body ∧ Pieces ';' body (bt :: cols) ∧
    CharText digit bt base ∧ ColText digit cols[0]? preferred ∧ ColText digit cols[1]? others

/-- What a line means. Rows that are not written as above have no meaning. -/
inductive Means (x : Rex) : List Char → List Item → Prop
  | blank {line} : Trimmed line [] → Means x line []
  | comment {line l} : Trimmed line ('#' :: l) → Means x line []
  | other {line l} : Trimmed line l → x.refLine l = none → x.verLine l = false →
      (¬ ∃ y ds r, Digits l y ds r) → (¬ ∃ y, Notes l y) → Means x line []
  | version {line l} : Trimmed line l → l.head? ≠ some '#' → x.refLine l = none → x.verLine l = true →
      Means x line []
  | ref {line l v i k} : Trimmed line l → l ≠ [] → l.head? ≠ some '#' → x.refLine l = some (v, i, k) →
      Means x line [.ref i v k]
  | row {line base preferred others} : RowText x.digit line base preferred others →
      Means x line (.base base.1 base.2 ::
        (preferred.map (fun v => .var base.1 v.1 (some "activated") v.2) ++
          others.map (fun v => .var base.1 v.1 none v.2)))

/-- `Reference` and `Version` lines start with these words. -/
def Words (x : Rex) : Prop :=
  (∀ l, l.head? ≠ some 'R' → x.refLine l = none) ∧ ∀ l, l.head? ≠ some 'V' → x.verLine l = false

/-! ## Matching -/

theorem hex_not {c : Char} (h : isHex c = true) : c ≠ 'U' ∧ c ≠ '+' ∧ c ≠ ' ' ∧ c ≠ 'R' ∧ c ≠ 'V' ∧ c ≠ '#' := by
  refine ⟨?_, ?_, ?_, ?_, ?_, ?_⟩ <;> rintro rfl <;> exact absurd h (by decide)

theorem cpText_cases {t : List Char} {x : Nat} (h : CpText t x) : ∃ ds, (t = ds ∨ t = 'U' :: '+' :: ds) ∧
    4 ≤ ds.length ∧ ds.length ≤ 6 ∧ (∀ c ∈ ds, isHex c = true) ∧ parseHex ds = some x := by
  obtain ⟨ds, ns, h1, h2, h3, h4, h5⟩ := h
  exact ⟨ds, h1, h2, h3, forall_hex.1 ⟨ns, h4⟩,
    (parseHex_iff (by rintro rfl; simp at h2)).2 ⟨ns, h4, h5⟩⟩

theorem cpText_chars {t : List Char} {x : Nat} (h : CpText t x) :
    t ≠ [] ∧ (∀ c ∈ t, c ≠ ' ') ∧ (∀ c, t.head? = some c → c ≠ 'R' ∧ c ≠ 'V' ∧ c ≠ '#') := by
  obtain ⟨ds, h1, h2, -, h4, -⟩ := cpText_cases h
  have hds : ds ≠ [] := by rintro rfl; simp at h2
  rcases h1 with rfl | rfl
  · refine ⟨hds, fun c hc => (hex_not (h4 c hc)).2.2.1, fun c hc => ?_⟩
    exact (hex_not (h4 c (List.mem_of_mem_head? hc))).2.2.2
  · refine ⟨by simp, ?_, ?_⟩
    · intro c hc
      rcases List.mem_cons.1 hc with rfl | hc
      · decide
      rcases List.mem_cons.1 hc with rfl | hc
      · decide
      exact (hex_not (h4 c hc)).2.2.1
    · intro c hc
      simp only [List.head?_cons, Option.some.injEq] at hc
      subst hc
      decide

theorem optU_hex {c : Char} {s : List Char} (h : isHex c = true) : optU (c :: s) = ([], c :: s) := by
  apply C76.optU_other
  rintro ⟨t, ht⟩
  simp only [List.cons.injEq] at ht
  exact (hex_not h).1 ht.1

theorem seqPart_cp {t : List Char} {x : Nat} (h : CpText t x) {rest : List Char}
    (hr : ∀ c, rest.head? = some c → hexVal c = none) :
    seqPart (t ++ rest) = some (t ++ (optSpace rest).1, (optSpace rest).2) := by
  obtain ⟨ds, h1, h2, h3, h4, -⟩ := cpText_cases h
  have hrun : hexRun (ds ++ rest) = some (ds, rest) := hexRun_iff.2 ⟨rfl, h2, h3, Or.inr hr, h4⟩
  rcases h1 with rfl | rfl
  · cases t with
    | nil => simp at h2
    | cons c t =>
      unfold seqPart
      rw [List.cons_append, optU_hex (h4 c (by simp))]
      simp only [List.cons_append] at hrun
      simp [hrun]
  · unfold seqPart
    simp [optU, hrun]

theorem seqPart_other {c : Char} {s : List Char} (hc : isHex c = false) (hU : c ≠ 'U') :
    seqPart (c :: s) = none := by
  unfold seqPart
  rw [C76.optU_other (by rintro ⟨t, ht⟩; simp only [List.cons.injEq] at ht; exact hU ht.1)]
  simp [hexRun, hc]

theorem seqPart_none {rest : List Char}
    (h : rest = [] ∨ ∃ s, rest = '(' :: s ∨ rest = ',' :: s) : seqPart rest = none := by
  rcases h with rfl | ⟨s, rfl | rfl⟩
  · rfl
  · exact seqPart_other (by decide) (by decide)
  · exact seqPart_other (by decide) (by decide)

theorem space_not {c : Char} (h : isSpace c = true) : isHex c = false ∧ c ≠ 'U' := by
  constructor
  · have hs : c.toNat ≤ 32 ∨ 0x85 ≤ c.toNat := by
      by_contra hn
      unfold isSpace at h
      simp only [List.mem_cons, List.not_mem_nil, or_false, Bool.or_eq_true, decide_eq_true_eq,
        Bool.and_eq_true] at h
      omega
    have hv : hexVal c = none := by
      unfold hexVal
      simp only [Char.le_def, UInt32.le_iff_toNat_le] at *
      have e : c.val.toNat = c.toNat := rfl
      simp only [e, show '0'.val.toNat = 48 from rfl, show '9'.val.toNat = 57 from rfl,
        show 'A'.val.toNat = 65 from rfl, show 'F'.val.toNat = 70 from rfl, show 'a'.val.toNat = 97 from rfl,
        show 'f'.val.toNat = 102 from rfl]
      rw [if_neg (by omega), if_neg (by omega), if_neg (by omega)]
    simp [isHex, hv]
  · rintro rfl; exact absurd h (by decide)

/-- What may follow a sequence or a sequence with references. -/
def Ends (rest : List Char) : Prop := rest = [] ∨ ∃ s, rest = '(' :: s ∨ rest = ',' :: s

theorem ends_nohex {rest : List Char} (h : Ends rest) : ∀ c, rest.head? = some c → hexVal c = none := by
  rcases h with rfl | ⟨s, rfl | rfl⟩
  · simp
  · intro c hc; simp only [List.head?_cons, Option.some.injEq] at hc; subst hc; decide
  · intro c hc; simp only [List.head?_cons, Option.some.injEq] at hc; subst hc; decide

theorem ends_space {rest : List Char} (h : Ends rest) : optSpace rest = ([], rest) := by
  rcases h with rfl | ⟨s, rfl | rfl⟩ <;> rfl

theorem seqParts_seq {ts : List (List Char)} {s : Seq} (h : List.Forall₂ CpText ts s) (hne : ts ≠ [])
    {rest : List Char} (hr : Ends rest) (n : Nat) (hn : ts.length ≤ n) :
    seqParts n (join ' ' ts ++ rest) = (join ' ' ts, rest) := by
  induction h generalizing n with
  | nil => exact absurd rfl hne
  | cons h1 h2 ih =>
    rename_i t x ts s
    cases n with
    | zero => simp at hn
    | succ n =>
      cases ts with
      | nil =>
        simp only [join]
        rw [seqParts, seqPart_cp h1 (ends_nohex hr), ends_space hr]
        have : seqParts n rest = ([], rest) := by
          cases n with
          | zero => rfl
          | succ n => rw [seqParts, seqPart_none hr]
        simp [this]
      | cons u ts =>
        have ih := ih (by simp) n (by simpa using hn)
        simp only [join, List.append_assoc, List.cons_append]
        rw [seqParts, seqPart_cp h1 (by
          intro c hc; simp only [List.head?_cons, Option.some.injEq] at hc; subst hc; decide)]
        simp only [optSpace]
        rw [ih]
        simp

theorem refTail_digits {digit : Char → Bool} {cs : List Char} (h : ∀ c ∈ cs, digit c = true) (rest : List Char) :
    refTail digit (cs.flatMap (fun c => [',', c]) ++ ')' :: rest) = some (cs, rest) := by
  induction cs with
  | nil => simp [refTail]
  | cons c cs ih =>
    simp only [List.flatMap_cons, List.cons_append, List.nil_append]
    rw [refTail, if_pos (h c (by simp)), ih (fun c hc => h c (by simp [hc]))]

theorem join_single (c : Char) (cs : List Char) :
    join ',' ((c :: cs).map (fun c => [c])) = c :: cs.flatMap (fun c => [',', c]) := by
  induction cs generalizing c with
  | nil => rfl
  | cons d cs ih =>
    have := ih d
    simp only [List.map_cons] at this ⊢
    rw [join, this]
    simp

theorem refGroup_text {digit : Char → Bool} {t rest : List Char} {refs : List String} (h : RefText digit t refs)
    (ht : t ≠ []) : ∃ cs, refGroup digit (t ++ rest) = some (cs, rest) ∧ refs = cs.map (fun c => String.ofList [c]) := by
  rcases h with ⟨h, -⟩ | ⟨cs, h1, h2, rfl, h4⟩
  · exact absurd h ht
  · cases cs with
    | nil => exact absurd rfl h1
    | cons c cs =>
      refine ⟨c :: cs, ?_, h4⟩
      rw [join_single]
      simp only [List.cons_append, List.append_assoc, List.nil_append]
      rw [refGroup, if_pos (h2 c (by simp)), refTail_digits (fun c hc => h2 c (by simp [hc]))]

theorem dropU_hex {ds : List Char} (h : ∀ c ∈ ds, isHex c = true) : dropUPlus ds = ds := by
  induction ds with
  | nil => rfl
  | cons c ds ih =>
    rw [dropUPlus]
    · rw [ih (fun c hc => h c (by simp [hc]))]
    · intro s hc _
      exact (hex_not (h c (by simp))).1 hc

theorem parse_cp {t : List Char} {x : Nat} (h : CpText t x) : parseHex (dropUPlus t) = some x := by
  obtain ⟨ds, h1, -, -, h4, h5⟩ := cpText_cases h
  rcases h1 with rfl | rfl
  · rw [dropU_hex h4]; exact h5
  · rw [dropUPlus, dropU_hex h4]; exact h5

theorem parse_seq {t : List Char} {s : Seq} (h : SeqText t s) :
    (splitOn ' ' t).mapM (fun p => parseHex (dropUPlus p)) = some s := by
  obtain ⟨ts, hne, hf, rfl⟩ := h
  rw [splitOn_join ' ' ts hne]
  · clear hne
    induction hf with
    | nil => rfl
    | cons h1 h2 ih => rw [List.mapM_cons, parse_cp h1, ih]; rfl
  · intro w hw c hc
    obtain ⟨x, hx⟩ : ∃ x, CpText w x := by
      clear hne
      induction hf with
      | nil => simp at hw
      | cons h1 h2 ih =>
        rcases List.mem_cons.1 hw with rfl | hw
        · exact ⟨_, h1⟩
        · exact ih hw
    exact (cpText_chars hx).2.1 c hc

theorem join_length {ts : List (List Char)} (h : ∀ t ∈ ts, t ≠ []) (d : Char) :
    ts.length ≤ (join d ts).length := by
  induction ts with
  | nil => simp
  | cons t ts ih =>
    have h1 := List.length_pos_iff.2 (h t (by simp))
    have ih := ih (fun t ht => h t (by simp [ht]))
    cases ts with
    | nil => simp only [join, List.length_cons, List.length_nil]; omega
    | cons u ts => simp only [join, List.length_append, List.length_cons] at ih ⊢; omega

theorem forall_cp_ne {ts : List (List Char)} {s : Seq} (h : List.Forall₂ CpText ts s) : ∀ t ∈ ts, t ≠ [] := by
  induction h with
  | nil => simp
  | cons h1 h2 ih =>
    intro t ht
    rcases List.mem_cons.1 ht with rfl | ht
    · exact (cpText_chars h1).1
    · exact ih t ht

theorem seqText_ne {t : List Char} {s : Seq} (h : SeqText t s) : t ≠ [] ∧ s ≠ [] := by
  obtain ⟨ts, h1, h2, rfl⟩ := h
  have := join_length (forall_cp_ne h2) ' '
  have hl := List.length_pos_iff.2 h1
  refine ⟨by intro he; rw [he] at this; simp only [List.length_nil] at this; omega, ?_⟩
  rintro rfl
  cases h2
  exact h1 rfl

theorem match_char {digit : Char → Bool} {t : List Char} {p : Seq × List String} (h : CharText digit t p)
    {rest : List Char} (hr : rest = [] ∨ ∃ s, rest = ',' :: s) :
    ∃ q cs, match3743 digit (t ++ rest) = some (q, cs, rest) ∧
      (splitOn ' ' q).mapM (fun p => parseHex (dropUPlus p)) = some p.1 ∧
      p.2 = cs.map (fun c => String.ofList [c]) := by
  obtain ⟨a, b, ha, hb, rfl⟩ := h
  have hseq := parse_seq ha
  have hane := (seqText_ne ha).1
  obtain ⟨s, refs⟩ := p
  simp only at hb hseq
  obtain ⟨ts, hne, hf, rfl⟩ := ha
  simp only at hf
  have hE : Ends (b ++ rest) := by
    rcases hb with ⟨rfl, -⟩ | ⟨cs, -, -, rfl, -⟩
    · rw [List.nil_append]
      rcases hr with rfl | ⟨s, rfl⟩
      · exact Or.inl rfl
      · exact Or.inr ⟨s, Or.inr rfl⟩
    · exact Or.inr ⟨_, Or.inl rfl⟩
  have hsome : ∃ p, seqPart (join ' ' ts ++ (b ++ rest)) = some p := by
    cases hf with
    | nil => exact absurd rfl hne
    | cons h1 h2 =>
      rename_i t x ts s
      cases ts with
      | nil =>
        simp only [join]
        exact ⟨_, seqPart_cp h1 (ends_nohex hE)⟩
      | cons u ts =>
        simp only [join, List.append_assoc, List.cons_append]
        exact ⟨_, seqPart_cp h1 (by
          intro c hc; simp only [List.head?_cons, Option.some.injEq] at hc; subst hc; decide)⟩
  obtain ⟨p0, hp0⟩ := hsome
  have hparts := seqParts_seq hf hne hE (join ' ' ts ++ (b ++ rest)).length (by
    have := join_length (forall_cp_ne hf) ' '
    simp only [List.length_append]; omega)
  rw [List.append_assoc]
  unfold match3743
  rw [hp0]
  simp only
  rw [hparts]
  by_cases hbe : b = []
  · subst hbe
    refine ⟨join ' ' ts, [], ?_, hseq, ?_⟩
    · have : refGroup digit ([] ++ rest) = none := by
        rcases hr with rfl | ⟨s, rfl⟩ <;> rfl
      rw [this]
      rfl
    · rcases hb with ⟨-, h⟩ | ⟨cs, -, -, h, -⟩
      · rw [h]; rfl
      · simp at h
  · obtain ⟨cs, h1, h2⟩ := refGroup_text (rest := rest) hb hbe
    refine ⟨join ' ' ts, cs, ?_, hseq, h2⟩
    rw [h1]

theorem charText_ne {digit : Char → Bool} {t : List Char} {p : Seq × List String} (h : CharText digit t p) :
    t ≠ [] ∧ p.1 ≠ [] := by
  obtain ⟨a, b, ha, -, rfl⟩ := h
  have := seqText_ne ha
  exact ⟨by simp [this.1], this.2⟩

theorem itemText_ne {digit : Char → Bool} {t : List Char} {p : Seq × List String} (h : ItemText digit t p) :
    t ≠ [] ∧ p.1 ≠ [] := by
  obtain ⟨a, u, -, hu, rfl⟩ := h
  have := charText_ne hu
  exact ⟨by simp [this.1], this.2⟩

theorem parse_space {digit : Char → Bool} {a : List Char} (ha : ∀ c ∈ a, isSpace c = true)
    {s : List Char} {n : Nat} (hn : (a ++ s).length ≤ n) :
    ∃ m, s.length ≤ m ∧ parseChar3743 digit n (a ++ s) = parseChar3743 digit m s := by
  induction a generalizing n with
  | nil => exact ⟨n, hn, rfl⟩
  | cons c a ih =>
    cases n with
    | zero => simp at hn
    | succ n =>
      obtain ⟨m, h1, h2⟩ := ih (fun c hc => ha c (by simp [hc])) (n := n) (by simpa using hn)
      refine ⟨m, h1, ?_⟩
      have hs := space_not (ha c (by simp))
      rw [List.cons_append, parseChar3743]
      have : match3743 digit (c :: (a ++ s)) = none := by
        unfold match3743
        rw [seqPart_other hs.1 hs.2]
      rw [this]
      exact h2

theorem parse_list {digit : Char → Bool} {ts : List (List Char)} {l : List (Seq × List String)}
    (h : List.Forall₂ (ItemText digit) ts l) (n : Nat) (hn : (join ',' ts).length ≤ n) :
    parseChar3743 digit n (join ',' ts) = some l := by
  induction h generalizing n with
  | nil => cases n <;> rfl
  | cons h1 h2 ih =>
    rename_i t₀ p ts l
    obtain ⟨a, t, ha, h1, rfl⟩ := h1
    obtain ⟨hne, -⟩ := charText_ne h1
    have step : ∀ rest : List Char, (rest = [] ∨ ∃ s, rest = ',' :: s) → ∀ n, (t ++ rest).length ≤ n + 1 →
        parseChar3743 digit n rest = some l → parseChar3743 digit (n + 1) (t ++ rest) = some (p :: l) := by
      intro rest hr n hn hl
      obtain ⟨q, cs, hm, hs, hc⟩ := match_char h1 hr
      cases t with
      | nil => exact absurd rfl hne
      | cons c t =>
        rw [List.cons_append] at hm ⊢
        rw [parseChar3743, hm]
        simp only [hs, hl]
        rw [← hc]
    cases ts with
    | nil =>
      cases h2
      simp only [join] at hn ⊢
      obtain ⟨n, hn, he⟩ := parse_space (digit := digit) ha hn
      rw [he]
      cases n with
      | zero => have := List.length_pos_iff.2 hne; omega
      | succ n =>
        have := step [] (Or.inl rfl) n (by simpa using hn) (by cases n <;> rfl)
        simpa using this
    | cons u ts =>
      simp only [join, List.append_assoc] at hn ⊢
      obtain ⟨n, hn, he⟩ := parse_space (digit := digit) ha hn
      rw [he]
      cases n with
      | zero => simp at hn
      | succ n =>
        refine step _ (Or.inr ⟨_, rfl⟩) n hn ?_
        have hpos := List.length_pos_iff.2 hne
        simp only [List.length_append, List.length_cons] at hn
        cases n with
        | zero => omega
        | succ n =>
          rw [parseChar3743]
          have : match3743 digit (',' :: join ',' (u :: ts)) = none := by
            unfold match3743
            rw [seqPart_none (Or.inr ⟨_, Or.inr rfl⟩)]
          rw [this]
          exact ih n (by omega)

/-! ## Lines -/

theorem column_text {digit : Char → Bool} {bt : List Char} {cols : List (List Char)} {i : Nat}
    {l : List (Seq × List String)} (hnc : ∀ c ∈ cols, '#' ∉ c) (h : ColText digit cols[i]? l) :
    (column (bt :: cols) (i + 1) = none ∧ l = []) ∨
    ∃ t, column (bt :: cols) (i + 1) = some t ∧ parseChar3743 digit t.length t = some l := by
  unfold column
  rw [List.getElem?_cons_succ]
  rcases h with ⟨h1, h2⟩ | ⟨s, t, h1, h2, ts, h3, h4⟩
  · rw [h1]; exact Or.inl ⟨rfl, h2⟩
  · rw [h1]
    rw [trimmed_iff] at h2
    simp only [h2]
    by_cases ht : t = []
    · left
      refine ⟨by rw [if_neg]; simp [ht], ?_⟩
      cases h3 with
      | nil => rfl
      | cons h5 h6 =>
        rename_i u p us l
        exfalso
        have hu := (itemText_ne h5).1
        rw [ht] at h4
        cases us with
        | nil => simp only [join] at h4; exact hu h4.symm
        | cons v us => simp [join] at h4
    · right
      refine ⟨t, ?_, ?_⟩
      · refine if_pos ⟨ht, ?_⟩
        intro hh
        have hm : '#' ∈ t := List.mem_of_mem_head? hh
        have : '#' ∈ s := by
          obtain ⟨⟨a, b, hab, -⟩, -⟩ := trimmed_iff.2 h2
          rw [hab]; simp [hm]
        exact hnc s (List.mem_of_getElem? h1) this
      · rw [h4]; exact parse_list h3 _ (Nat.le_refl _)

theorem mem_join {d c : Char} {ps : List (List Char)} {p : List Char} (hp : p ∈ ps) (hc : c ∈ p) :
    c ∈ join d ps := by
  induction ps with
  | nil => simp at hp
  | cons q ps ih =>
    cases ps with
    | nil =>
      simp only [List.mem_singleton] at hp
      subst hp
      exact hc
    | cons r ps =>
      rw [join]
      rcases List.mem_cons.1 hp with rfl | hp
      · simp [hc]
      · simp [ih hp]

theorem hexRun_prefix {ds tail : List Char} (h4 : 4 ≤ ds.length) (h : ∀ c ∈ ds, isHex c = true) :
    ∃ d r, hexRun (ds ++ tail) = some (d, r) := by
  unfold hexRun
  rw [if_pos]
  · exact ⟨_, _, rfl⟩
  · rw [List.takeWhile_append_of_pos h]
    simp only [List.length_take, List.length_append]
    omega

theorem seqText_start {t : List Char} {s : Seq} (h : SeqText t s) (tail : List Char) :
    (seqPart (t ++ tail)).isSome = true ∧
    (∀ c, (t ++ tail).head? = some c → c ≠ 'R' ∧ c ≠ 'V' ∧ c ≠ '#') := by
  obtain ⟨ts, hne, hf, rfl⟩ := h
  cases hf with
  | nil => exact absurd rfl hne
  | cons h1 h2 =>
    rename_i t x ts s
    obtain ⟨tail', ht⟩ : ∃ tail', join ' ' (t :: ts) ++ tail = t ++ tail' := by
      cases ts with
      | nil => exact ⟨tail, rfl⟩
      | cons u ts => exact ⟨' ' :: (join ' ' (u :: ts) ++ tail), by simp [join]⟩
    rw [ht]
    constructor
    · rw [C76.seqPart_some]
      obtain ⟨ds, h3, h4, -, h5, -⟩ := cpText_cases h1
      have := hexRun_prefix (tail := tail') h4 h5
      rcases h3 with rfl | rfl
      · exact Or.inl (C76.hexRun_digits.1 this)
      · obtain ⟨d, r, hr⟩ := this
        exact Or.inr (C76.notes_hexRun.2 ⟨ds ++ tail', d, r, rfl, hr⟩)
    · intro c hc
      have hcp := cpText_chars h1
      apply hcp.2.2
      rw [List.head?_append] at hc
      cases hh : t.head? with
      | none => rw [List.head?_eq_none_iff] at hh; exact absurd hh hcp.1
      | some d => rw [hh] at hc; simpa using hc

/-- What the code makes of a row that starts with a sequence. -/
theorem row_split {x : Rex} (hw : Words x) {line l b body bt : List Char} {cols : List (List Char)}
    (h1 : Trimmed line l) (h2 : Upto '#' l b) (h3 : Trimmed b body) (h4 : Pieces ';' body (bt :: cols))
    {a rt : List Char} {s : Seq} (ha : SeqText a s) (hbt : bt = a ++ rt) :
    line3743 x line = .row ⟨match parseChar3743 x.digit bt.length bt with
      | some [p] => some p
      | _ => none, column (bt :: cols) 1, column (bt :: cols) 2⟩ ∧ ∀ c ∈ cols, '#' ∉ c := by
  have hbody : ∃ tail, body = bt ++ tail := by
    obtain ⟨-, -, he⟩ := h4
    cases cols with
    | nil => exact ⟨[], by simpa [join] using he⟩
    | cons c cols => exact ⟨_, by simpa [join] using he⟩
  obtain ⟨tail, htail⟩ := hbody
  have hbtne : bt ≠ [] := by rw [hbt]; simp [(seqText_ne ha).1]
  have hl : ∃ tail', l = bt ++ tail' := by
    obtain ⟨⟨p, q, hpq, hp, hq⟩, -⟩ := h3
    have hlp : ∃ r, l = p ++ (bt ++ r) := by
      rcases h2.2 with h | ⟨r, h⟩
      · exact ⟨tail ++ q, by rw [h, hpq, htail]; simp⟩
      · exact ⟨tail ++ q ++ '#' :: r, by rw [h, hpq, htail]; simp⟩
    obtain ⟨r, hlp⟩ := hlp
    cases p with
    | nil => exact ⟨r, by simpa using hlp⟩
    | cons c p =>
      have := h1.2.1 c (by rw [hlp]; rfl)
      rw [hp c (by simp)] at this
      simp at this
  obtain ⟨tail', hl⟩ := hl
  obtain ⟨hs1, hs2⟩ := seqText_start ha (rt ++ tail')
  rw [← List.append_assoc, ← hbt, ← hl] at hs1 hs2
  have hlne : l ≠ [] := by rw [hl]; simp [hbtne]
  have hnc : ∀ c ∈ cols, '#' ∉ c := by
    intro c hc hm
    have hb : '#' ∈ body := by
      rw [h4.2.2]; exact mem_join (by simp [hc]) hm
    obtain ⟨⟨p, q, hpq, -⟩, -⟩ := h3
    exact h2.1 (by rw [hpq]; simp [hb])
  refine ⟨?_, hnc⟩
  unfold line3743
  rw [trimmed_iff] at h1 h3
  rw [head_upto] at h2
  rw [pieces_iff] at h4
  simp only [h1]
  rw [if_neg hlne, if_neg (fun h => (hs2 _ h).2.2 rfl), hw.1 l (fun h => (hs2 _ h).1 rfl)]
  simp only
  rw [hw.2 l (fun h => (hs2 _ h).2.1 rfl)]
  have hm : (match3743 x.digit l).isNone = false := by
    rw [Option.isNone_eq_false_iff, C76.match_some]; exact hs1
  rw [if_neg (by simp), if_neg (by simp [hm]), h2, h3, h4]
  rfl

theorem parse_single {digit : Char → Bool} {bt : List Char} {base : Seq × List String}
    (h : CharText digit bt base) : parseChar3743 digit bt.length bt = some [base] := by
  have := parse_list (.cons ⟨[], bt, by simp, h, rfl⟩ .nil) bt.length (by simp [join])
  simpa [join] using this

theorem row_line {x : Rex} (hw : Words x) {line : List Char} {base : Seq × List String}
    {preferred others : List (Seq × List String)} (h : RowText x.digit line base preferred others) :
    ∃ c1 c2, line3743 x line = .row ⟨some base, c1, c2⟩ ∧
      ((c1 = none ∧ preferred = []) ∨ ∃ t, c1 = some t ∧ parseChar3743 x.digit t.length t = some preferred) ∧
      ((c2 = none ∧ others = []) ∨ ∃ t, c2 = some t ∧ parseChar3743 x.digit t.length t = some others) := by
  obtain ⟨l, b, body, bt, cols, h1, h2, h3, h4, h5, h6, h7⟩ := h
  obtain ⟨a, rt, ha, -, hbt⟩ := id h5
  obtain ⟨hrow, hnc⟩ := row_split hw h1 h2 h3 h4 ha hbt
  rw [parse_single h5] at hrow
  exact ⟨_, _, hrow, column_text (bt := bt) (i := 0) hnc h6, column_text (bt := bt) (i := 1) hnc h7⟩

theorem insert_fold {x : Rex} {valid : String → Bool} {force : Bool} {type : Option String} {s : Seq} (hs : s ≠ [])
    {c : Option (List Char)} {l : List (Seq × List String)} (hl : ∀ v ∈ l, v.1 ≠ [])
    (h : (c = none ∧ l = []) ∨ ∃ t, c = some t ∧ parseChar3743 x.digit t.length t = some l) (g : LGR) :
    insert3743 x force type (some s) g c =
      ((l.map (fun v => Item.var s v.1 type v.2)).foldl (step valid force) g, .ok ()) := by
  unfold insert3743
  rcases h with ⟨rfl, rfl⟩ | ⟨t, rfl, ht⟩
  · rfl
  · simp only [ht]
    clear ht
    induction l generalizing g with
    | nil => rfl
    | cons v l ih =>
      rw [forEach]
      have hq := var_quiet (valid := valid) (g := g) hs (hl v (by simp)) (t := type) (refs := v.2) (force := force)
      simp only [var3743, hq, List.map_cons, List.foldl_cons]
      exact ih (fun v hv => hl v (by simp [hv])) _

theorem colText_ne {digit : Char → Bool} {c : Option (List Char)} {l : List (Seq × List String)}
    (h : ColText digit c l) : ∀ v ∈ l, v.1 ≠ [] := by
  rcases h with ⟨-, rfl⟩ | ⟨s, t, -, -, ts, h, -⟩
  · simp
  · clear * - h
    induction h with
    | nil => simp
    | cons h1 h2 ih =>
      intro v hv
      rcases List.mem_cons.1 hv with rfl | hv
      · exact (itemText_ne h1).2
      · exact ih v hv

theorem rowText_ne {digit : Char → Bool} {line : List Char} {base : Seq × List String}
    {preferred others : List (Seq × List String)} (h : RowText digit line base preferred others) :
    base.1 ≠ [] ∧ (∀ v ∈ preferred, v.1 ≠ []) ∧ ∀ v ∈ others, v.1 ≠ [] := by
  obtain ⟨l, b, body, bt, cols, -, -, -, -, h5, h6, h7⟩ := h
  exact ⟨(charText_ne h5).2, colText_ne h6, colText_ne h7⟩

/-- The variable `codepoints` after a line. -/
def current (p : Option Seq) : List Item → Option Seq
  | .base k _ :: _ => some k
  | _ => p

theorem doc_means {x : Rex} (hw : Words x) {valid : String → Bool} {force : Bool} {line : List Char}
    {its : List Item} (h : Means x line its) (st : LGR × Option Seq) :
    doc3743 x valid force st line = ((its.foldl (step valid force) st.1, current st.2 its), .ok ()) := by
  have hskip : line3743 x line = .skip → doc3743 x valid force st line = ((st.1, st.2), .ok ()) := by
    intro h
    unfold doc3743
    rw [h]
  cases h with
  | blank h =>
    apply hskip
    unfold line3743
    simp [trimmed_iff.1 h]
  | comment h =>
    apply hskip
    unfold line3743
    simp [trimmed_iff.1 h]
  | other h1 h2 h3 h4 h5 =>
    apply hskip
    unfold line3743
    rename_i l
    have hm : (match3743 x.digit l).isNone = true := by
      have : ¬ (match3743 x.digit l).isSome = true := by
        rw [C76.match_some, C76.seqPart_some]
        exact fun h => h.elim h4 h5
      rw [Option.isNone_iff_eq_none]
      exact Option.not_isSome_iff_eq_none.1 this
    simp only [trimmed_iff.1 h1, h2, h3, hm]
    simp
  | version h1 h2 h3 h4 =>
    apply hskip
    unfold line3743
    simp only [trimmed_iff.1 h1, h3, h4]
    simp
  | ref h1 h2 h3 h4 =>
    rename_i l v i k
    have : line3743 x line = .ref v i k := by
      unfold line3743
      simp only [trimmed_iff.1 h1, h4, if_neg h2, if_neg h3]
    unfold doc3743
    rw [this]
    rfl
  | row h =>
    rename_i base preferred others
    obtain ⟨c1, c2, h1, h2, h3⟩ := row_line hw h
    obtain ⟨hs, hp, ho⟩ := rowText_ne h
    unfold doc3743
    rw [h1]
    have hq := base_quiet (valid := valid) (g := st.1) hs (refs := base.2) (force := force)
    simp only [hq]
    rw [insert_fold (valid := valid) hs hp h2]
    simp only
    rw [insert_fold (valid := valid) hs ho h3]
    simp [List.foldl_append, current]

theorem proper_means {x : Rex} {line : List Char} {its : List Item} (h : Means x line its) :
    ∀ it ∈ its, Proper it := by
  cases h with
  | blank h => simp
  | comment h => simp
  | other h1 h2 h3 h4 h5 => simp
  | version h1 h2 h3 h4 => simp
  | ref h1 h2 h3 h4 =>
    intro it hit
    obtain rfl := List.mem_singleton.1 hit
    trivial
  | row h =>
    obtain ⟨hs, hp, ho⟩ := rowText_ne h
    intro it hit
    rcases List.mem_cons.1 hit with rfl | hit
    · exact hs
    rcases List.mem_append.1 hit with hit | hit
    · obtain ⟨v, hv, rfl⟩ := List.mem_map.1 hit
      exact ⟨hs, hp v hv⟩
    · obtain ⟨v, hv, rfl⟩ := List.mem_map.1 hit
      exact ⟨hs, ho v hv⟩

theorem docs_fold {x : Rex} (hw : Words x) {valid : String → Bool} {force : Bool} {lines : List (List Char)}
    {itss : List (List Item)} (h : List.Forall₂ (Means x) lines itss) (st : LGR × Option Seq) :
    ∃ o, forEach (doc3743 x valid force) st lines =
      ((itss.flatten.foldl (step valid force) st.1, o), .ok ()) := by
  induction h generalizing st with
  | nil => exact ⟨st.2, rfl⟩
  | cons h1 h2 ih =>
    rename_i line its lines itss
    rw [forEach, doc_means hw (valid := valid) (force := force) h1 st]
    simp only
    obtain ⟨o', ho'⟩ := ih (its.foldl (step valid force) st.1, current st.2 its)
    exact ⟨o', by rw [ho']; simp [List.foldl_append]⟩

/-- **C74** A table in the notation of RFC 3743 is parsed without an exception escaping, and the LGR is
exactly what its lines mean: the references are those of the reference lines, the first with an identifier
counting; the code points and sequences are the bases of the rows, with the references given in the first
row with this base (those that are defined, if forced; else rows with other references do not count);
the variants are those of the rows with this base, of type `activated` for the first column of variants, the
first with a code point counting. Missing in the hypothesis: rows written otherwise, in particular with a
space before a comma or semicolon (`C36.stale_base_3743`). -/
theorem table_exact_partial (x : Rex) (hw : Words x) (valid : String → Bool) (force allowInvalid : Bool)
    (lines : List (List Char)) (itss : List (List Item)) (h : List.Forall₂ (Means x) lines itss) :
    (parse3743 x valid force allowInvalid lines).2 = .ok () ∧
    Says valid force itss.flatten (parse3743 x valid force allowInvalid lines).1.1 := by
  obtain ⟨o, ho⟩ := docs_fold hw (valid := valid) (force := force) h ({ raiseInvalid := !allowInvalid }, none)
  unfold parse3743
  rw [ho]
  refine ⟨rfl, says_items _ force _ _ ?_⟩
  intro it hit
  obtain ⟨its, h1, h2⟩ := List.mem_flatten.1 hit
  clear ho hit
  induction h with
  | nil => simp at h1
  | cons a b ih =>
    rcases List.mem_cons.1 h1 with rfl | h1
    · exact proper_means a it h2
    · exact ih h1

/-! Non-vacuity: a table with a reference, preferred and other variants. -/

/-- `Reference` lines with a one-character value. -/
def rex1 : Rex := ⟨fun c => '0' ≤ c && c ≤ '9',
  fun l => if l = "Reference 1 a".toList then some ("a", "1", none) else none, fun _ => false⟩

example : Words rex1 := by
  refine ⟨fun l hl => ?_, fun l _ => rfl⟩
  unfold rex1
  simp only
  rw [if_neg]
  rintro rfl
  exact hl rfl

example : (parse3743 rex1 (fun _ => true) false false ["Reference 1 a".toList,
    "U+0061(1);0062 0063(1),  0064; 0065 # c".toList]).1.1.rep.lookup [0x61] =
    some { cp := [0x61], attrs := { refs := ["1"] }, vars := [([0x62, 0x63], [⟨[0x62, 0x63], some "activated", none, none, none, ["1"]⟩]),
      ([0x64], [⟨[0x64], some "activated", none, none, none, []⟩]), ([0x65], [⟨[0x65], none, none, none, none, []⟩])] } := by
  decide +kernel

example : CharText rex1.digit "U+0061 0062(1)".toList ([0x61, 0x62], ["1"]) := by
  refine ⟨"U+0061 0062".toList, "(1)".toList, ⟨["U+0061".toList, "0062".toList], by simp, ?_, by decide⟩,
    Or.inr ⟨['1'], by simp, by decide, by decide, by decide⟩, by decide⟩
  refine .cons ⟨"0061".toList, [0, 0, 6, 1], Or.inr (by decide), by decide, by decide, ?_, by decide⟩
    (.cons ⟨"0062".toList, [0, 0, 6, 2], Or.inl rfl, by decide, by decide, ?_, by decide⟩ .nil)
  · exact mapM_hex_iff.1 (by decide)
  · exact mapM_hex_iff.1 (by decide)

example : ListText rex1.digit "0062,  0063".toList [([0x62], []), ([0x63], [])] := by
  refine ⟨["0062".toList, "  0063".toList], .cons ⟨[], "0062".toList, by simp, ?_, rfl⟩
    (.cons ⟨"  ".toList, "0063".toList, by decide, ?_, by decide⟩ .nil), by decide⟩
  · refine ⟨"0062".toList, [], ⟨["0062".toList], by simp, .cons ⟨"0062".toList, [0, 0, 6, 2], Or.inl rfl,
      by decide, by decide, mapM_hex_iff.1 (by decide), by decide⟩ .nil, by decide⟩, Or.inl ⟨rfl, rfl⟩, by decide⟩
  · refine ⟨"0063".toList, [], ⟨["0063".toList], by simp, .cons ⟨"0063".toList, [0, 0, 6, 3], Or.inl rfl,
      by decide, by decide, mapM_hex_iff.1 (by decide), by decide⟩ .nil, by decide⟩, Or.inl ⟨rfl, rfl⟩, by decide⟩

end Lgr.Props.C74

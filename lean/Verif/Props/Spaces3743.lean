import Verif.Props.Tables3743

/-!
# C158: spaces in tables in the notation of RFC 3743

A space before a comma, a semicolon or references makes a base or a whole column of variants unreadable. What
the LGR is then, and when an exception is raised.
-/

namespace Lgr.Props.C158
open Lgr Tables Text LGR TableItems TableSyntax Validate C74

/-- No code point starts here. -/
def NoMore (rest : List Char) : Prop := ∀ c, rest.head? = some c → isHex c = false ∧ c ≠ 'U'

/-- A sequence and a space, without a further code point after it. -/
def SpacedSeq (t : List Char) : Prop := ∃ u s rest, SeqText u s ∧ NoMore rest ∧ t = u ++ ' ' :: rest

/-- A list of sequences with references in which a sequence is followed by such a space. -/
def SpacedList (digit : Char → Bool) (t : List Char) : Prop :=
  ∃ ts l a u, List.Forall₂ (ItemText digit) ts l ∧ (∀ c ∈ a, isSpace c = true) ∧ SpacedSeq u ∧
    t = ts.flatMap (fun p => p ++ [',']) ++ (a ++ u)

/-- What is read of a column: all of the list or, if it has a space in the wrong place, nothing. -/
def ColReads (digit : Char → Bool) (c : Option (List Char)) (l : List (Seq × List String)) : Prop :=
  ColText digit c l ∨ ((∃ s t, c = some s ∧ Trimmed s t ∧ SpacedList digit t) ∧ l = [])

/-- A column that is missing or blank. -/
def Blank (c : Option (List Char)) : Prop := c = none ∨ ∃ s, c = some s ∧ Trimmed s []

/-- The columns of a line, without comment. -/
def Cut (line bt : List Char) (cols : List (List Char)) : Prop :=
  ∃ l b body, Trimmed line l ∧ Upto '#' l b ∧ Trimmed b body ∧ Pieces ';' body (bt :: cols)

/-- The items of the variants of a row. -/
def variants (k : Seq) (preferred others : List (Seq × List String)) : List Item :=
  preferred.map (fun v => .var k v.1 (some "activated") v.2) ++ others.map (fun v => .var k v.1 none v.2)

/-- What is read of a line, and the sequence a row without readable base would be taken for, before and after
the line. -/
inductive Reads (x : Rex) : Option Seq → List Char → List Item → Option Seq → Prop
  | other {p line its} : Means x line its → (∀ k refs, Item.base k refs ∉ its) → Reads x p line its p
  | row {p line bt cols base preferred others} : Cut line bt cols → CharText x.digit bt base →
      ColReads x.digit cols[0]? preferred → ColReads x.digit cols[1]? others →
      Reads x p line (.base base.1 base.2 :: variants base.1 preferred others) (some base.1)
  | stale {k line bt cols preferred others} : Cut line bt cols → SpacedSeq bt →
      ColReads x.digit cols[0]? preferred → ColReads x.digit cols[1]? others → k ≠ [] →
      Reads x (some k) line (variants k preferred others) (some k)
  | lost {p line bt cols} : Cut line bt cols → SpacedSeq bt → Blank cols[0]? → Blank cols[1]? →
      Reads x p line [] p

/-- What is read of lines. -/
inductive ReadsAll (x : Rex) : Option Seq → List (List Char) → List Item → Option Seq → Prop
  | nil {p} : ReadsAll x p [] [] p
  | cons {p q r line its lines its'} : Reads x p line its q → ReadsAll x q lines its' r →
      ReadsAll x p (line :: lines) (its ++ its') r

/-! ## Reading -/

theorem noMore_part {rest : List Char} (h : NoMore rest) : seqPart rest = none := by
  cases rest with
  | nil => rfl
  | cons c s => exact seqPart_other (h c rfl).1 (h c rfl).2

theorem seqParts_spaced {ts : List (List Char)} {s : Seq} (h : List.Forall₂ CpText ts s) (hne : ts ≠ [])
    {rest : List Char} (hr : NoMore rest) (n : Nat) (hn : ts.length ≤ n) :
    seqParts n (join ' ' ts ++ ' ' :: rest) = (join ' ' ts ++ [' '], rest) := by
  have hsp : ∀ w : List Char, ∀ c, (' ' :: w).head? = some c → hexVal c = none := by
    intro w c hc; simp only [List.head?_cons, Option.some.injEq] at hc; subst hc; decide
  induction h generalizing n with
  | nil => exact absurd rfl hne
  | cons h1 h2 ih =>
    rename_i t x ts s
    cases n with
    | zero => simp at hn
    | succ n =>
      cases ts with
      | nil =>
        simp only [join]
        rw [seqParts, seqPart_cp h1 (hsp rest)]
        have : seqParts n rest = ([], rest) := by
          cases n with
          | zero => rfl
          | succ n => rw [seqParts, noMore_part hr]
        simp [this, optSpace]
      | cons u ts =>
        have ih := ih (by simp) n (by simpa using hn)
        simp only [join, List.append_assoc, List.cons_append]
        rw [seqParts, seqPart_cp h1 (hsp _)]
        simp only [optSpace]
        rw [ih]
        simp

theorem mapM_last {α β : Type} {f : α → Option β} {l : List α} {a : α} (h : f a = none) :
    (l ++ [a]).mapM f = none := by
  induction l with
  | nil => simp [h]
  | cons b l ih =>
    rw [List.cons_append, List.mapM_cons, ih]
    cases f b <;> rfl

theorem join_snoc {ts : List (List Char)} (h : ts ≠ []) (d : Char) : join d ts ++ [d] = join d (ts ++ [[]]) := by
  induction ts with
  | nil => exact absurd rfl h
  | cons t ts ih =>
    cases ts with
    | nil => simp [join]
    | cons u ts =>
      have := ih (by simp)
      simp only [join, List.cons_append, List.append_assoc] at this ⊢
      rw [this]

theorem seq_chars {ts : List (List Char)} {s : Seq} (h : List.Forall₂ CpText ts s) :
    ∀ w ∈ ts, ∀ c ∈ w, c ≠ ' ' := by
  induction h with
  | nil => simp
  | cons h1 h2 ih =>
    intro w hw
    rcases List.mem_cons.1 hw with rfl | hw
    · exact (cpText_chars h1).2.1
    · exact ih w hw

theorem parse_spaced {digit : Char → Bool} {t : List Char} (h : SpacedSeq t) (n : Nat) (hn : t.length ≤ n) :
    parseChar3743 digit n t = none := by
  obtain ⟨u, s, rest, ⟨ts, hne, hf, rfl⟩, hr, rfl⟩ := h
  have hlen := join_length (forall_cp_ne hf) ' '
  have hpart := seqParts_spaced hf hne hr (join ' ' ts ++ ' ' :: rest).length (by
    simp only [List.length_append]; omega)
  have hsome := (seqText_start ⟨ts, hne, hf, rfl⟩ (' ' :: rest)).1
  have hsplit : (splitOn ' ' (join ' ' ts ++ [' '])).mapM (fun p => parseHex (dropUPlus p)) = none := by
    rw [join_snoc hne, splitOn_join ' ' _ (by simp)]
    · exact mapM_last rfl
    · intro w hw
      rcases List.mem_append.1 hw with hw | hw
      · exact seq_chars hf w hw
      · rw [List.mem_singleton.1 hw]; simp
  have hm : ∃ refs r, match3743 digit (join ' ' ts ++ ' ' :: rest) = some (join ' ' ts ++ [' '], refs, r) := by
    unfold match3743
    obtain ⟨p, hp⟩ := Option.isSome_iff_exists.1 hsome
    rw [hp]
    simp only
    rw [hpart]
    cases refGroup digit rest with
    | none => exact ⟨_, _, rfl⟩
    | some q => exact ⟨_, _, rfl⟩
  obtain ⟨refs, r, hm⟩ := hm
  generalize ht : join ' ' ts ++ ' ' :: rest = t at hm hn
  cases t with
  | nil => simp at ht
  | cons c t =>
    cases n with
    | zero => simp at hn
    | succ n => rw [parseChar3743, hm]; simp only [hsplit]

theorem parse_spacedList {digit : Char → Bool} {t : List Char} (h : SpacedList digit t) (n : Nat)
    (hn : t.length ≤ n) : parseChar3743 digit n t = none := by
  obtain ⟨ts, l, a, u, hf, ha, hu, rfl⟩ := h
  induction hf generalizing n with
  | nil =>
    simp only [List.flatMap_nil, List.nil_append] at hn ⊢
    obtain ⟨m, h1, h2⟩ := parse_space (digit := digit) ha hn
    rw [h2]
    exact parse_spaced hu m h1
  | cons h1 h2 ih =>
    rename_i t₀ p ts l
    obtain ⟨b, t, hb, h1, rfl⟩ := h1
    obtain ⟨hne, -⟩ := charText_ne h1
    simp only [List.flatMap_cons, List.append_assoc] at hn ⊢
    obtain ⟨n, hn, he⟩ := parse_space (digit := digit) hb hn
    rw [he]
    obtain ⟨q, cs, hm, hs, hc⟩ := match_char h1 (rest := [','] ++ (List.flatMap (fun p => p ++ [',']) ts ++ (a ++ u)))
      (Or.inr ⟨_, rfl⟩)
    have hpos := List.length_pos_iff.2 hne
    simp only [List.length_append, List.length_cons, List.length_nil] at hn
    cases n with
    | zero => omega
    | succ n =>
      cases n with
      | zero => omega
      | succ n =>
        have ih := ih n (by simp only [List.length_append]; omega)
        have hcomma : parseChar3743 digit (n + 1)
            ([','] ++ (List.flatMap (fun p => p ++ [',']) ts ++ (a ++ u))) = none := by
          rw [List.singleton_append, parseChar3743]
          have : match3743 digit (',' :: (List.flatMap (fun p => p ++ [',']) ts ++ (a ++ u))) = none := by
            unfold match3743
            rw [seqPart_none (Or.inr ⟨_, Or.inr rfl⟩)]
          rw [this]
          exact ih
        generalize [','] ++ (List.flatMap (fun p => p ++ [',']) ts ++ (a ++ u)) = rest at hm hcomma
        cases t with
        | nil => exact absurd rfl hne
        | cons c t =>
          rw [List.cons_append] at hm ⊢
          rw [parseChar3743, hm]
          simp only [hs, hcomma]

/-! ## Rows -/

theorem spacedSeq_ne {u : List Char} (h : SpacedSeq u) : u ≠ [] := by
  obtain ⟨_, _, _, _, _, rfl⟩ := h; simp

theorem spacedList_ne {digit : Char → Bool} {t : List Char} (h : SpacedList digit t) : t ≠ [] := by
  obtain ⟨ts, l, a, u, -, -, hu, rfl⟩ := h
  have := spacedSeq_ne hu
  simp [this]

/-- What the code makes of a column. -/
def Gives (digit : Char → Bool) (c : Option (List Char)) (l : List (Seq × List String)) : Prop :=
  ((c = none ∧ l = []) ∨ ∃ t, c = some t ∧ parseChar3743 digit t.length t = some l) ∨
  ((∃ t, c = some t ∧ parseChar3743 digit t.length t = none) ∧ l = [])

theorem column_some {bt s t : List Char} {cols : List (List Char)} {i : Nat} (hnc : ∀ c ∈ cols, '#' ∉ c)
    (h1 : cols[i]? = some s) (h2 : Trimmed s t) (ht : t ≠ []) : column (bt :: cols) (i + 1) = some t := by
  have hh : t.head? ≠ some '#' := by
    intro hh
    have hm : '#' ∈ t := List.mem_of_mem_head? hh
    have : '#' ∈ s := by
      obtain ⟨⟨a, b, hab, -⟩, -⟩ := h2
      rw [hab]; simp [hm]
    exact hnc s (List.mem_of_getElem? h1) this
  unfold column
  rw [List.getElem?_cons_succ, h1]
  simp only [trimmed_iff.1 h2]
  exact if_pos ⟨ht, hh⟩

theorem column_gives {digit : Char → Bool} {bt : List Char} {cols : List (List Char)} {i : Nat}
    {l : List (Seq × List String)} (hnc : ∀ c ∈ cols, '#' ∉ c) (h : ColReads digit cols[i]? l) :
    Gives digit (column (bt :: cols) (i + 1)) l := by
  rcases h with h | ⟨⟨s, t, h1, h2, h3⟩, h4⟩
  · exact Or.inl (column_text hnc h)
  · exact Or.inr ⟨⟨t, column_some hnc h1 h2 (spacedList_ne h3), parse_spacedList h3 _ (Nat.le_refl _)⟩, h4⟩

theorem column_blank {bt : List Char} {cols : List (List Char)} {i : Nat} (h : Blank cols[i]?) :
    column (bt :: cols) (i + 1) = none := by
  unfold column
  rw [List.getElem?_cons_succ]
  rcases h with h | ⟨s, h, h'⟩
  · rw [h]
  · rw [h]
    simp [trimmed_iff.1 h']

theorem insert_gives {x : Rex} {valid : String → Bool} {force : Bool} {type : Option String} {s : Seq} (hs : s ≠ [])
    {c : Option (List Char)} {l : List (Seq × List String)} (hl : ∀ v ∈ l, v.1 ≠ []) (h : Gives x.digit c l) (g : LGR) :
    insert3743 x force type (some s) g c =
      ((l.map (fun v => Item.var s v.1 type v.2)).foldl (step valid force) g, .ok ()) := by
  rcases h with h | ⟨⟨t, rfl, ht⟩, rfl⟩
  · exact insert_fold hs hl h g
  · unfold insert3743
    simp only [ht]
    rfl

theorem colReads_ne {digit : Char → Bool} {c : Option (List Char)} {l : List (Seq × List String)}
    (h : ColReads digit c l) : ∀ v ∈ l, v.1 ≠ [] := by
  rcases h with h | ⟨-, rfl⟩
  · exact colText_ne h
  · simp

theorem doc_reads {x : Rex} (hw : Words x) {valid : String → Bool} {force : Bool} {line : List Char}
    {its : List Item} {p q : Option Seq} (h : Reads x p line its q) (g : LGR) :
    doc3743 x valid force (g, p) line = ((its.foldl (step valid force) g, q), .ok ()) := by
  cases h with
  | other h1 h2 =>
    rw [doc_means hw h1]
    cases its with
    | nil => rfl
    | cons i its =>
      cases i with
      | base k refs => exact absurd (by simp) (h2 k refs)
      | ref _ _ _ => rfl
      | var _ _ _ _ => rfl
  | row h1 h2 h3 h4 =>
    rename_i bt cols base preferred others
    obtain ⟨l, b, body, h5, h6, h7, h8⟩ := h1
    obtain ⟨a, rt, ha, -, hbt⟩ := id h2
    obtain ⟨hrow, hnc⟩ := row_split hw h5 h6 h7 h8 ha hbt
    rw [parse_single h2] at hrow
    have hs := (charText_ne h2).2
    unfold doc3743
    rw [hrow]
    have hq := base_quiet (valid := valid) (g := g) hs (refs := base.2) (force := force)
    simp only [hq]
    rw [insert_gives (valid := valid) hs (colReads_ne h3) (column_gives (i := 0) hnc h3)]
    simp only
    rw [insert_gives (valid := valid) hs (colReads_ne h4) (column_gives (i := 1) hnc h4)]
    simp [List.foldl_append, variants]
  | stale h1 h2 h3 h4 hk =>
    rename_i k bt cols preferred others
    obtain ⟨l, b, body, h5, h6, h7, h8⟩ := h1
    obtain ⟨u, s, rest, hu, -, hbt⟩ := id h2
    obtain ⟨hrow, hnc⟩ := row_split hw h5 h6 h7 h8 hu hbt
    rw [parse_spaced h2 _ (Nat.le_refl _)] at hrow
    unfold doc3743
    rw [hrow]
    simp only
    rw [insert_gives (valid := valid) hk (colReads_ne h3) (column_gives (i := 0) hnc h3)]
    simp only
    rw [insert_gives (valid := valid) hk (colReads_ne h4) (column_gives (i := 1) hnc h4)]
    simp [List.foldl_append, variants]
  | lost h1 h2 h3 h4 =>
    rename_i bt cols
    obtain ⟨l, b, body, h5, h6, h7, h8⟩ := h1
    obtain ⟨u, s, rest, hu, -, hbt⟩ := id h2
    obtain ⟨hrow, hnc⟩ := row_split hw h5 h6 h7 h8 hu hbt
    rw [parse_spaced h2 _ (Nat.le_refl _), column_blank (i := 0) h3, column_blank (i := 1) h4] at hrow
    unfold doc3743
    rw [hrow]
    rfl

theorem docs_reads {x : Rex} (hw : Words x) {valid : String → Bool} {force : Bool} {lines : List (List Char)}
    {its : List Item} {p q : Option Seq} (h : ReadsAll x p lines its q) (g : LGR) (more : List (List Char)) :
    forEach (doc3743 x valid force) (g, p) (lines ++ more) =
      forEach (doc3743 x valid force) (its.foldl (step valid force) g, q) more := by
  induction h generalizing g with
  | nil => rfl
  | cons h1 h2 ih =>
    rw [List.cons_append, forEach, doc_reads hw h1]
    simp only
    rw [ih, List.foldl_append]

theorem variants_proper {k : Seq} (hk : k ≠ []) {l m : List (Seq × List String)} (hl : ∀ v ∈ l, v.1 ≠ [])
    (hm : ∀ v ∈ m, v.1 ≠ []) : ∀ it ∈ variants k l m, Proper it := by
  intro it hit
  rcases List.mem_append.1 hit with hit | hit
  · obtain ⟨v, hv, rfl⟩ := List.mem_map.1 hit
    exact ⟨hk, hl v hv⟩
  · obtain ⟨v, hv, rfl⟩ := List.mem_map.1 hit
    exact ⟨hk, hm v hv⟩

theorem proper_reads {x : Rex} {p q : Option Seq} {lines : List (List Char)} {its : List Item}
    (h : ReadsAll x p lines its q) : ∀ it ∈ its, Proper it := by
  induction h with
  | nil => simp
  | cons h1 h2 ih =>
    intro it hit
    rcases List.mem_append.1 hit with hit | hit
    · cases h1 with
      | other h1 _ => exact proper_means h1 it hit
      | row h1 hb h3 h4 =>
        rcases List.mem_cons.1 hit with rfl | hit
        · exact (charText_ne hb).2
        · exact variants_proper (charText_ne hb).2 (colReads_ne h3) (colReads_ne h4) it hit
      | stale h1 h2 h3 h4 hk => exact variants_proper hk (colReads_ne h3) (colReads_ne h4) it hit
      | lost => simp at hit
    · exact ih it hit

/-- **C158** What the LGR is for a table with spaces before commas, semicolons or references: a column with such
a space gives no variant at all; a row with such a space in the base gives no base, and its variants
are those of the base of the last row with one. -/
theorem spaced_exact (x : Rex) (hw : Words x) (valid : String → Bool) (force allowInvalid : Bool)
    (lines : List (List Char)) (its : List Item) (q : Option Seq) (h : ReadsAll x none lines its q) :
    (parse3743 x valid force allowInvalid lines).2 = .ok () ∧
    Says valid force its (parse3743 x valid force allowInvalid lines).1.1 := by
  have ho := docs_reads hw (valid := valid) (force := force) h { raiseInvalid := !allowInvalid } []
  rw [List.append_nil] at ho
  unfold parse3743
  rw [ho]
  exact ⟨rfl, says_items _ force _ _ (proper_reads h)⟩

/-- **C158** If there is no row with a base before, and a column of variants is not blank, `UnboundLocalError`
is raised. -/
theorem spaced_first (x : Rex) (hw : Words x) (valid : String → Bool) (force allowInvalid : Bool)
    (pre post : List (List Char)) (its : List Item) (h : ReadsAll x none pre its none) (line bt : List Char)
    (cols : List (List Char)) (hc : Cut line bt cols) (hb : SpacedSeq bt)
    (hv : ∃ i s t, i < 2 ∧ cols[i]? = some s ∧ Trimmed s t ∧ t ≠ []) :
    (parse3743 x valid force allowInvalid (pre ++ line :: post)).2 = .error .nameError := by
  have ho := docs_reads hw (valid := valid) (force := force) h { raiseInvalid := !allowInvalid } (line :: post)
  unfold parse3743
  rw [ho, forEach]
  obtain ⟨l, b, body, h5, h6, h7, h8⟩ := hc
  obtain ⟨u, s, rest, hu, -, hbt⟩ := id hb
  obtain ⟨hrow, hnc⟩ := row_split hw h5 h6 h7 h8 hu hbt
  rw [parse_spaced hb _ (Nat.le_refl _)] at hrow
  obtain ⟨i, s, t, hi, h1, h2, h3⟩ := hv
  have hcol := column_some (bt := bt) hnc h1 h2 h3
  have hdoc : ∀ g, ∃ st, doc3743 x valid force (g, none) line = (st, .error .nameError) := by
    intro g
    unfold doc3743
    rw [hrow]
    simp only
    have hi : i = 0 ∨ i = 1 := by omega
    rcases hi with rfl | rfl
    · rw [hcol]
      exact ⟨_, rfl⟩
    · cases column (bt :: cols) 1 with
      | some w => exact ⟨_, rfl⟩
      | none =>
        rw [hcol]
        exact ⟨_, rfl⟩
  obtain ⟨st, hst⟩ := hdoc (its.foldl (step valid force) { raiseInvalid := !allowInvalid })
  rw [hst]

/-- **C158** violated: a table is not read as the same table without spaces before commas and semicolons. -/
theorem space_wrong :
    ((parse3743 rex1 (fun _ => true) false false ["0078".toList, "0061 ;0062;".toList]).1.1.rep.lookup
      [0x61]).isSome = false ∧
    ((parse3743 rex1 (fun _ => true) false false ["0078".toList, "0061;0062;".toList]).1.1.rep.lookup
      [0x61]).isSome = true ∧
    ((parse3743 rex1 (fun _ => true) false false ["0061;0062 ,0063;".toList]).1.1.rep.lookup
      [0x61]).map (fun c => c.getVariants.map Variant.cp) = some [] ∧
    ((parse3743 rex1 (fun _ => true) false false ["0061;0062,0063;".toList]).1.1.rep.lookup
      [0x61]).map (fun c => c.getVariants.map Variant.cp) = some [[0x62], [0x63]] := by decide +kernel

/-! Non-vacuity: a row, a row with a space before the semicolon, a row with a space before a comma. -/

theorem cp1 (t : List Char) (ns : List Nat) (x : Nat) (h4 : t.length = 4) (h : t.mapM hexVal = some ns)
    (hx : x = valueOf 16 ns) : SeqText t [x] :=
  ⟨[t], by simp, .cons ⟨t, ns, Or.inl rfl, by omega, by omega, mapM_hex_iff.1 h, hx⟩ .nil, rfl⟩

theorem trimmed_self (l : List Char) (h : strip l = l) : Trimmed l l := trimmed_iff.2 h

theorem reads1 : ReadsAll rex1 none
    ["0078".toList, "0061 ;0062;".toList, "0063;0064,0065 (1),0066;0067".toList]
    [.base [0x78] [], .var [0x78] [0x62] (some "activated") [], .base [0x63] [], .var [0x63] [0x67] none []]
    (some [0x63]) := by
  refine .cons (its := [.base [0x78] []]) (q := some [0x78]) ?_
    (.cons (its := [.var [0x78] [0x62] (some "activated") []]) (q := some [0x78]) ?_
      (.cons (its := [.base [0x63] [], .var [0x63] [0x67] none []]) (q := some [0x63]) ?_ .nil))
  · refine .row (bt := "0078".toList) (cols := []) (base := ([0x78], [])) (preferred := []) (others := [])
      ⟨_, _, _, trimmed_self _ (by decide), head_upto.2 rfl, trimmed_self _ (by decide), pieces_iff.2 (by decide)⟩
      ⟨"0078".toList, [], cp1 _ [0, 0, 7, 8] _ (by decide) (by decide) (by decide), Or.inl ⟨rfl, rfl⟩, by decide⟩
      (Or.inl (Or.inl ⟨rfl, rfl⟩)) (Or.inl (Or.inl ⟨rfl, rfl⟩))
  · refine .stale (bt := "0061 ".toList) (cols := ["0062".toList, []]) (preferred := [([0x62], [])]) (others := [])
      ⟨_, _, _, trimmed_self _ (by decide), head_upto.2 rfl, trimmed_self _ (by decide), pieces_iff.2 (by decide)⟩
      ⟨"0061".toList, [0x61], [], cp1 _ [0, 0, 6, 1] _ (by decide) (by decide) (by decide), by simp [NoMore], by decide⟩
      (Or.inl (Or.inr ⟨"0062".toList, "0062".toList, rfl, trimmed_self _ (by decide), ["0062".toList],
        .cons ⟨[], "0062".toList, by simp, ⟨"0062".toList, [], cp1 _ [0, 0, 6, 2] _ (by decide) (by decide) (by decide),
          Or.inl ⟨rfl, rfl⟩, by decide⟩, by decide⟩ .nil, by decide⟩))
      (Or.inl (Or.inr ⟨[], [], rfl, trimmed_self _ (by decide), [], .nil, rfl⟩)) (by decide)
  · refine .row (bt := "0063".toList) (cols := ["0064,0065 (1),0066".toList, "0067".toList]) (base := ([0x63], []))
      (preferred := []) (others := [([0x67], [])])
      ⟨_, _, _, trimmed_self _ (by decide), head_upto.2 rfl, trimmed_self _ (by decide), pieces_iff.2 (by decide)⟩
      ⟨"0063".toList, [], cp1 _ [0, 0, 6, 3] _ (by decide) (by decide) (by decide), Or.inl ⟨rfl, rfl⟩, by decide⟩
      (Or.inr ⟨⟨"0064,0065 (1),0066".toList, "0064,0065 (1),0066".toList, rfl, trimmed_self _ (by decide),
        ["0064".toList], [([0x64], [])], [], "0065 (1),0066".toList,
        .cons ⟨[], "0064".toList, by simp, ⟨"0064".toList, [], cp1 _ [0, 0, 6, 4] _ (by decide) (by decide) (by decide),
          Or.inl ⟨rfl, rfl⟩, by decide⟩, by decide⟩ .nil, by simp,
        ⟨"0065".toList, [0x65], "(1),0066".toList, cp1 _ [0, 0, 6, 5] _ (by decide) (by decide) (by decide), ?_, by decide⟩,
        by decide⟩, rfl⟩)
      (Or.inl (Or.inr ⟨"0067".toList, "0067".toList, rfl, trimmed_self _ (by decide), ["0067".toList],
        .cons ⟨[], "0067".toList, by simp, ⟨"0067".toList, [], cp1 _ [0, 0, 6, 7] _ (by decide) (by decide) (by decide),
          Or.inl ⟨rfl, rfl⟩, by decide⟩, by decide⟩ .nil, by decide⟩))
    intro c hc
    have : c = '(' := by
      have h : "(1),0066".toList.head? = some '(' := by decide
      rw [h] at hc
      exact (Option.some.inj hc).symm
    subst this
    decide

example : (parse3743 rex1 (fun _ => true) false false ["0061 ;0062;".toList]).2 = .error .nameError := by
  decide +kernel

end Lgr.Props.C158

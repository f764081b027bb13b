import Verif.Props.TableItems
import Verif.Props.TableSyntax

/-!
# C36, C73, C75, C76: tables of code points

What a file in the notation of RFC 4290, or with a code point per line, means; how the parser is chosen.
-/

namespace Lgr.Props

/-! ## C73: RFC 4290 -/

namespace C73
open Lgr Tables Text LGR TableItems TableSyntax Validate

/-- The text stands for a sequence: code points separated by `-`. -/
def CharSays (t : List Char) (s : Seq) : Prop :=
  ∃ ps, Pieces '-' t ps ∧ List.Forall₂ Notes ps s

/-- The line, without white space and comment, starts with a code point; `base` is the text before the
first bar, `vars` are the texts between it and the second, separated by colons. -/
def Row (line base : List Char) (vars : List (List Char)) : Prop :=
  ∃ l body fs, Trimmed line l ∧ l.head? ≠ some '#' ∧ (∃ x, Notes l x) ∧ Upto '#' l body ∧
    Pieces '|' body (base :: fs) ∧
    ((fs = [] ∧ vars = []) ∨ ∃ v fs', fs = v :: fs' ∧ Pieces ':' v vars)

/-- The variants that the texts stand for; those that are not sequences are left out. -/
inductive VarsSay (k : Seq) : List (List Char) → List Item → Prop
  | nil : VarsSay k [] []
  | good {t ts v its} : CharSays t v → VarsSay k ts its → VarsSay k (t :: ts) (.var k v none [] :: its)
  | bad {t ts its} : (¬ ∃ v, CharSays t v) → VarsSay k ts its → VarsSay k (t :: ts) its

/-- What a line means. A line with variants whose base is not a sequence has no meaning. -/
inductive Means : List Char → List Item → Prop
  | skip {line} : (¬ ∃ b vs, Row line b vs) → Means line []
  | bad {line b} : Row line b [] → (¬ ∃ s, CharSays b s) → Means line []
  | row {line b vs s its} : Row line b vs → CharSays b s → VarsSay s vs its → Means line (.base s [] :: its)

theorem charSays_iff {t : List Char} {s : Seq} : parseChar4290 t = some s ↔ CharSays t s := by
  unfold parseChar4290 CharSays
  rw [mapM_opt_iff (R := Notes)]
  · constructor
    · intro h; exact ⟨_, pieces_iff.2 rfl, h⟩
    · rintro ⟨ps, h1, h2⟩; rw [pieces_iff.1 h1]; exact h2
  · intro p x
    rw [notes_iff, Option.map_eq_some_iff]
    constructor
    · rintro ⟨⟨y, r⟩, h, rfl⟩; exact ⟨r, h⟩
    · rintro ⟨r, h⟩; exact ⟨(x, r), h, rfl⟩

theorem charSays_ne {t : List Char} {s : Seq} (h : CharSays t s) : s ≠ [] := by
  obtain ⟨ps, ⟨h1, -⟩, h2⟩ := h
  rintro rfl
  cases h2
  exact h1 rfl

theorem charSays_none {t : List Char} : parseChar4290 t = none ↔ ¬ ∃ s, CharSays t s := by
  constructor
  · rintro h ⟨s, hs⟩
    rw [charSays_iff.2 hs] at h; simp at h
  · intro h
    cases hp : parseChar4290 t with
    | none => rfl
    | some s => exact absurd ⟨s, charSays_iff.1 hp⟩ h

theorem row_iff {line : List Char} {r : Row4290} : row4290 line = some r ↔
    ∃ b vs, Row line b vs ∧ r = ⟨parseChar4290 b, vs.map parseChar4290⟩ := by
  have hpre : ∀ {l : List Char}, (∃ x, Notes l x) ↔ (cpPrefix l).isNone = false := by
    intro l
    constructor
    · rintro ⟨x, h⟩
      obtain ⟨r, h⟩ := notes_iff.1 h
      rw [h]; rfl
    · intro h
      cases hc : cpPrefix l with
      | none => rw [hc] at h; simp at h
      | some p => exact ⟨p.1, notes_iff.2 ⟨p.2, hc⟩⟩
  constructor
  · intro h
    unfold row4290 at h
    simp only at h
    split at h
    · simp at h
    split at h
    · simp at h
    split at h
    · simp at h
    rename_i h1 h2 h3
    have hb := pieces_iff.2 (rfl : splitOn '|' ((splitOn '#' (strip line)).headD []) = _)
    rcases hcv : splitOn '|' ((splitOn '#' (strip line)).headD []) with _ | ⟨b, fs⟩
    · exact absurd hcv (go_ne _ _ _)
    rw [hcv] at h hb
    cases fs with
    | nil =>
      refine ⟨b, [], ⟨strip line, _, [], trimmed_iff.2 rfl, h2, hpre.2 (Bool.eq_false_iff.2 h3),
        head_upto.2 rfl, hb, Or.inl ⟨rfl, rfl⟩⟩, ?_⟩
      simpa using h.symm
    | cons v fs =>
      refine ⟨b, splitOn ':' v, ⟨strip line, _, v :: fs, trimmed_iff.2 rfl, h2, hpre.2 (Bool.eq_false_iff.2 h3),
        head_upto.2 rfl, hb, Or.inr ⟨v, fs, rfl, pieces_iff.2 rfl⟩⟩, ?_⟩
      simpa using h.symm
  · rintro ⟨b, vs, ⟨l, body, fs, h1, h2, h3, h4, h5, h6⟩, rfl⟩
    have h3' := hpre.1 h3
    rw [trimmed_iff] at h1
    rw [head_upto] at h4
    rw [pieces_iff] at h5
    unfold row4290
    simp only
    rw [h1, if_neg, if_neg h2, if_neg (Bool.eq_false_iff.1 h3'), h4, h5]
    · rcases h6 with ⟨rfl, rfl⟩ | ⟨v, fs', rfl, h6⟩
      · rfl
      · rw [pieces_iff] at h6
        simp [h6]
    · rintro rfl
      obtain ⟨x, s, ds, r, he, -⟩ := h3
      simp at he

theorem row_none {line : List Char} : row4290 line = none ↔ ¬ ∃ b vs, Row line b vs := by
  constructor
  · rintro h ⟨b, vs, hr⟩
    rw [row_iff.2 ⟨b, vs, hr, rfl⟩] at h; simp at h
  · intro h
    cases hr : row4290 line with
    | none => rfl
    | some r =>
      obtain ⟨b, vs, h1, -⟩ := row_iff.1 hr
      exact absurd ⟨b, vs, h1⟩ h

theorem vars_fold {valid : String → Bool} {force : Bool} {k : Seq} (hk : k ≠ []) {ts : List (List Char)}
    {its : List Item} (h : VarsSay k ts its) (g : LGR) :
    forEach (var4290 force (some k)) g (ts.map parseChar4290) = (its.foldl (step valid force) g, .ok ()) := by
  induction h generalizing g with
  | nil => rfl
  | good h1 h2 ih =>
    rw [List.map_cons, charSays_iff.2 h1, forEach]
    have hq := var_quiet (valid := valid) (g := g) hk (charSays_ne h1) (t := none) (refs := []) (force := force)
    simp only [var4290, hq]
    rw [ih]
    rfl
  | bad h1 h2 ih =>
    rw [List.map_cons, charSays_none.2 h1, forEach]
    simp only [var4290]
    rw [ih]

theorem doc_means {valid : String → Bool} {force : Bool} {line : List Char} {its : List Item}
    (h : Means line its) (st : LGR × Option Seq) :
    ∃ o, doc4290 force st line = ((its.foldl (step valid force) st.1, o), .ok ()) := by
  cases h with
  | skip h =>
    refine ⟨st.2, ?_⟩
    unfold doc4290
    rw [row_none.2 h]
    rfl
  | bad h1 h2 =>
    refine ⟨st.2, ?_⟩
    unfold doc4290
    rw [row_iff.2 ⟨_, _, h1, rfl⟩]
    simp only [charSays_none.2 h2]
    rfl
  | row h1 h2 h3 =>
    rename_i b vs s its
    refine ⟨some s, ?_⟩
    unfold doc4290
    rw [row_iff.2 ⟨_, _, h1, rfl⟩]
    have hs := charSays_ne h2
    have hq := base_quiet (valid := valid) (g := st.1) hs (refs := []) (force := force)
    simp only [charSays_iff.2 h2, hq]
    rw [vars_fold hs h3]
    rfl

theorem proper_vars {k : Seq} (hk : k ≠ []) {ts : List (List Char)} {its : List Item} (h : VarsSay k ts its) :
    ∀ it ∈ its, Proper it := by
  induction h with
  | nil => simp
  | good h1 h2 ih =>
    intro it hit
    rcases List.mem_cons.1 hit with rfl | hit
    · exact ⟨hk, charSays_ne h1⟩
    · exact ih it hit
  | bad h1 h2 ih => exact ih

theorem proper_means {line : List Char} {its : List Item} (h : Means line its) : ∀ it ∈ its, Proper it := by
  cases h with
  | skip h => simp
  | bad h1 h2 => simp
  | row h1 h2 h3 =>
    intro it hit
    rcases List.mem_cons.1 hit with rfl | hit
    · exact charSays_ne h2
    · exact proper_vars (charSays_ne h2) h3 it hit

theorem docs_fold {valid : String → Bool} {force : Bool} {lines : List (List Char)} {itss : List (List Item)}
    (h : List.Forall₂ Means lines itss) (st : LGR × Option Seq) :
    ∃ o, forEach (doc4290 force) st lines = ((itss.flatten.foldl (step valid force) st.1, o), .ok ()) := by
  induction h generalizing st with
  | nil => exact ⟨st.2, rfl⟩
  | cons h1 h2 ih =>
    rename_i line its lines itss
    obtain ⟨o, ho⟩ := doc_means (valid := valid) (force := force) h1 st
    rw [forEach, ho]
    simp only
    obtain ⟨o', ho'⟩ := ih (its.foldl (step valid force) st.1, o)
    exact ⟨o', by rw [ho']; simp [List.foldl_append]⟩

/-- **C73** A table in the notation of RFC 4290 is parsed without an exception escaping, and the LGR is
exactly what its lines mean: the code points and sequences are the bases of the rows, each with the
variants given in the rows with this base, and nothing else. Missing in the hypothesis: a line with
variants whose base is not a sequence has no meaning (`C36.stale_base`). -/
theorem table_exact_partial (force allowInvalid : Bool) (lines : List (List Char)) (itss : List (List Item))
    (h : List.Forall₂ Means lines itss) :
    (parse4290 force allowInvalid lines).2 = .ok () ∧
    Says (fun _ => false) force itss.flatten (parse4290 force allowInvalid lines).1.1 := by
  obtain ⟨o, ho⟩ := docs_fold (valid := fun _ => false) (force := force) h ({ raiseInvalid := !allowInvalid }, none)
  unfold parse4290
  rw [ho]
  refine ⟨rfl, says_items _ force _ _ ?_⟩
  intro it hit
  obtain ⟨its, h1, h2⟩ := List.mem_flatten.1 hit
  obtain ⟨line, -, hm⟩ : ∃ line ∈ lines, Means line its := by
    clear ho
    induction h with
    | nil => simp at h1
    | cons a b ih =>
      rcases List.mem_cons.1 h1 with rfl | h1
      · exact ⟨_, by simp, a⟩
      · obtain ⟨l, hl, hm⟩ := ih (by
          refine List.mem_flatten.2 ⟨its, h1, h2⟩) h1
        exact ⟨l, by simp [hl], hm⟩
  exact proper_means hm it h2

/-- **C73** Every line has a meaning, and only one, unless it has variants and its base is not a sequence. -/
theorem meaning (line : List Char) :
    (∃ b vs, Row line b vs ∧ vs ≠ [] ∧ (¬ ∃ s, CharSays b s) ∧ ¬ ∃ its, Means line its) ∨
    ∃ its, Means line its ∧ ∀ its', Means line its' → its' = its := by
  have huniq : ∀ b vs b' vs', Row line b vs → Row line b' vs' → b' = b ∧ vs' = vs := by
    rintro b vs b' vs' ⟨l, body, fs, h1, -, -, h4, h5, h6⟩ ⟨l', body', fs', h1', -, -, h4', h5', h6'⟩
    obtain rfl := (trimmed_iff.1 h1).symm.trans (trimmed_iff.1 h1')
    obtain rfl := (head_upto.1 h4).symm.trans (head_upto.1 h4')
    have := (pieces_iff.1 h5).symm.trans (pieces_iff.1 h5')
    simp only [List.cons.injEq] at this
    obtain ⟨rfl, rfl⟩ := this
    refine ⟨rfl, ?_⟩
    rcases h6 with ⟨rfl, rfl⟩ | ⟨v, f, rfl, h6⟩ <;> rcases h6' with ⟨h, rfl⟩ | ⟨v', f', h, h6'⟩
    · rfl
    · simp at h
    · simp at h
    · simp only [List.cons.injEq] at h
      obtain ⟨rfl, rfl⟩ := h
      exact (pieces_iff.1 h6').symm.trans (pieces_iff.1 h6)
  have hcu : ∀ t s s', CharSays t s → CharSays t s' → s' = s := by
    intro t s s' h h'
    rw [← charSays_iff] at h h'
    rw [h] at h'
    exact (Option.some.inj h').symm
  have hvu : ∀ (k : Seq) vs, ∃ its, VarsSay k vs its ∧ ∀ its', VarsSay k vs its' → its' = its := by
    intro k vs
    induction vs with
    | nil => exact ⟨[], .nil, fun its' h => by cases h; rfl⟩
    | cons t ts ih =>
      obtain ⟨its, h1, h2⟩ := ih
      by_cases hc : ∃ v, CharSays t v
      · obtain ⟨v, hv⟩ := hc
        refine ⟨_, .good hv h1, ?_⟩
        intro its' h
        cases h with
        | good h3 h4 => rw [hcu _ _ _ hv h3, h2 _ h4]
        | bad h3 h4 => exact absurd ⟨v, hv⟩ h3
      · refine ⟨_, .bad hc h1, ?_⟩
        intro its' h
        cases h with
        | good h3 h4 => exact absurd ⟨_, h3⟩ hc
        | bad h3 h4 => exact h2 _ h4
  by_cases hr : ∃ b vs, Row line b vs
  · obtain ⟨b, vs, hr⟩ := hr
    by_cases hc : ∃ s, CharSays b s
    · right
      obtain ⟨s, hs⟩ := hc
      obtain ⟨its, h1, h2⟩ := hvu s vs
      refine ⟨_, .row hr hs h1, ?_⟩
      intro its' h
      cases h with
      | skip h => exact absurd ⟨b, vs, hr⟩ h
      | bad h3 h4 =>
        obtain ⟨rfl, rfl⟩ := huniq _ _ _ _ hr h3
        exact absurd ⟨s, hs⟩ h4
      | row h3 h4 h5 =>
        obtain ⟨rfl, rfl⟩ := huniq _ _ _ _ hr h3
        obtain rfl := hcu _ _ _ hs h4
        rw [h2 _ h5]
    · by_cases hv : vs = []
      · right
        subst hv
        refine ⟨[], .bad hr hc, ?_⟩
        intro its' h
        cases h with
        | skip h => rfl
        | bad h3 h4 => rfl
        | row h3 h4 h5 =>
          obtain ⟨rfl, -⟩ := huniq _ _ _ _ hr h3
          exact absurd ⟨_, h4⟩ hc
      · left
        refine ⟨b, vs, hr, hv, hc, ?_⟩
        rintro ⟨its, h⟩
        cases h with
        | skip h => exact absurd ⟨b, vs, hr⟩ h
        | bad h3 h4 =>
          obtain ⟨-, h⟩ := huniq _ _ _ _ hr h3
          exact hv h.symm
        | row h3 h4 h5 =>
          obtain ⟨rfl, -⟩ := huniq _ _ _ _ hr h3
          exact absurd ⟨_, h4⟩ hc
  · right
    refine ⟨[], .skip hr, ?_⟩
    intro its' h
    cases h with
    | skip h => rfl
    | bad h3 h4 => rfl
    | row h3 h4 h5 => exact absurd ⟨_, _, h3⟩ hr

/-! Non-vacuity: two rows, a comment, a bad variant. -/

example : ((parse4290 false false ["# test".toList, "U+0061|U+0062:x:U+0063-U+0064 # c".toList,
    " U+0065".toList]).1.1.rep.lookup [0x61]).map (fun c => c.getVariants.map Variant.cp) =
    some [[0x62], [0x63, 0x64]] := by decide +kernel

end C73

/-! ## C75: one code point or sequence per line -/

namespace C75
open Lgr Tables Text LGR TableItems TableSyntax Validate

/-- The code points noted in a text, from left to right. -/
inductive Scan : List Char → List Nat → Prop
  | nil : Scan [] []
  | hit {s x ds r l} : Digits s x ds r → Scan r l → Scan ('U' :: '+' :: s) (x :: l)
  | miss {c s l} : (¬ ∃ x, Notes (c :: s) x) → Scan s l → Scan (c :: s) l

/-- What a line means. -/
inductive Means : List Char → List Item → Prop
  | blank {line} : Trimmed line [] → Means line []
  | comment {line l} : Trimmed line ('#' :: l) → Means line []
  | nothing {line l} : Trimmed line l → l.head? ≠ some '#' → Scan l [] → Means line []
  | cps {line l s} : Trimmed line l → l.head? ≠ some '#' → Scan l s → s ≠ [] → Means line [.base s []]

theorem digits_shorter {s ds r : List Char} {x : Nat} (h : Digits s x ds r) : r.length < s.length := by
  obtain ⟨rfl, h4, -⟩ := h
  simp; omega

theorem cpPrefix_eq {c : Char} {s r : List Char} {x : Nat} : cpPrefix (c :: s) = some (x, r) ↔
    ∃ s' ds, c = 'U' ∧ s = '+' :: s' ∧ Digits s' x ds r := by
  constructor
  · intro h
    unfold cpPrefix at h
    split at h
    · rename_i c' s' hc
      simp only [List.cons.injEq] at hc
      obtain ⟨rfl, rfl⟩ := hc
      split at h
      · simp at h
      · rename_i d r' hd
        split at h
        · simp at h
        · rename_i y hy
          simp only [Option.some.injEq, Prod.mk.injEq] at h
          obtain ⟨rfl, rfl⟩ := h
          exact ⟨_, d, rfl, rfl, digits_iff.2 ⟨hd, hy⟩⟩
    · simp at h
  · rintro ⟨s', ds, rfl, rfl, h⟩
    rw [digits_iff] at h
    simp [cpPrefix, h.1, h.2]

theorem scan_scanCps {s : List Char} {l : List Nat} (h : Scan s l) (n : Nat) (hn : s.length ≤ n) :
    scanCps n s = l := by
  induction h generalizing n with
  | nil => cases n <;> rfl
  | hit h1 h2 ih =>
    rename_i s x ds r l
    cases n with
    | zero => simp at hn
    | succ n =>
      rw [scanCps, cpPrefix_eq.2 ⟨s, ds, rfl, rfl, h1⟩]
      simp only
      rw [ih]
      have := digits_shorter h1
      simp at hn; omega
  | miss h1 h2 ih =>
    rename_i c s l
    cases n with
    | zero => simp at hn
    | succ n =>
      have : cpPrefix (c :: s) = none := by
        cases hc : cpPrefix (c :: s) with
        | none => rfl
        | some p => exact absurd ⟨p.1, notes_iff.2 ⟨p.2, hc⟩⟩ h1
      rw [scanCps, this]
      simp only
      exact ih n (by simpa using hn)

theorem scan_total (n : Nat) (s : List Char) (hn : s.length ≤ n) : ∃ l, Scan s l := by
  induction n generalizing s with
  | zero =>
    have : s = [] := by simpa using hn
    exact ⟨[], this ▸ .nil⟩
  | succ n ih =>
    cases s with
    | nil => exact ⟨[], .nil⟩
    | cons c s =>
      cases hc : cpPrefix (c :: s) with
      | none =>
        obtain ⟨l, hl⟩ := ih s (by simpa using hn)
        refine ⟨l, .miss ?_ hl⟩
        rintro ⟨x, hx⟩
        obtain ⟨r, hr⟩ := notes_iff.1 hx
        rw [hc] at hr; simp at hr
      | some p =>
        obtain ⟨s', ds, rfl, rfl, hd⟩ := cpPrefix_eq.1 hc
        have := digits_shorter hd
        obtain ⟨l, hl⟩ := ih p.2 (by simp at hn; omega)
        exact ⟨_, .hit hd hl⟩

/-- **C75** Every line has a meaning. -/
theorem meaning_exists (line : List Char) : ∃ its, Means line its := by
  have ht := trimmed_iff.2 (rfl : strip line = strip line)
  by_cases h : (strip line).head? = some '#'
  · cases hs : strip line with
    | nil => rw [hs] at h; simp at h
    | cons c l =>
      rw [hs] at h ht
      simp only [List.head?_cons, Option.some.injEq] at h
      exact ⟨_, .comment (h ▸ ht)⟩
  · obtain ⟨l, hl⟩ := scan_total _ (strip line) (Nat.le_refl _)
    cases l with
    | nil => exact ⟨_, .nothing ht h hl⟩
    | cons x l => exact ⟨_, .cps ht h hl (by simp)⟩

/-- **C75** Every line has a single meaning. -/
theorem meaning (line : List Char) : ∃ its, Means line its ∧ ∀ its', Means line its' → its' = its := by
  obtain ⟨its, h⟩ := meaning_exists line
  have hT : ∀ {l l'}, Trimmed line l → Trimmed line l' → l' = l :=
    fun h h' => (trimmed_iff.1 h').symm.trans (trimmed_iff.1 h)
  have hS : ∀ {l s s'}, Scan l s → Scan l s' → s' = s :=
    fun h h' => (scan_scanCps h' _ (Nat.le_refl _)).symm.trans (scan_scanCps h _ (Nat.le_refl _))
  refine ⟨its, h, fun its' h' => ?_⟩
  cases h <;> cases h' <;> first
    | rfl
    | (rename_i h _ _ _ h'; obtain rfl := hT h h'; simp_all; done)
    | skip
  · rename_i h1 l s h2 h3 h4 h5
    obtain rfl := hT h1 h2
    cases h4
    exact absurd rfl h5
  · rename_i l1 h1 l s h2 h3 h4 h5
    obtain rfl := hT h1 h2
    simp at h3
  · rename_i l1 h1 h2 h3 l s h4 h5 h6 h7
    obtain rfl := hT h1 h4
    exact absurd (hS h3 h6) h7
  · rename_i l s h1 h2 h3 h4 h5
    obtain rfl := hT h1 h5
    cases h3
    exact absurd rfl h4
  · rename_i l s h1 h2 h3 h4 l' h5
    obtain rfl := hT h1 h5
    simp at h2
  · rename_i l s h1 h2 h3 h4 l' h5 h6 h7
    obtain rfl := hT h1 h5
    exact absurd (hS h7 h3) h4
  · rename_i l s h1 h2 h3 h4 l' s' h5 h6 h7 h8
    obtain rfl := hT h1 h5
    rw [hS h3 h7]

theorem doc_means {valid : String → Bool} {line : List Char} {its : List Item} (h : Means line its) (g : LGR) :
    docLine g line = (its.foldl (step valid false) g, .ok ()) := by
  unfold docLine
  simp only
  cases h with
  | blank h => rw [trimmed_iff] at h; rw [if_pos h]; rfl
  | comment h => rw [trimmed_iff] at h; rw [h]; simp
  | nothing h1 h2 h3 =>
    rw [trimmed_iff] at h1
    subst h1
    split
    · rfl
    rw [scan_scanCps h3 _ (Nat.le_refl _)]
    rfl
  | cps h1 h2 h3 h4 =>
    rw [trimmed_iff] at h1
    subst h1
    rw [if_neg, if_neg h2, scan_scanCps h3 _ (Nat.le_refl _)]
    · exact base_quiet (valid := valid) h4
    · intro h
      rw [h] at h3
      cases h3
      exact h4 rfl

theorem docs_fold {valid : String → Bool} {lines : List (List Char)} {itss : List (List Item)}
    (h : List.Forall₂ Means lines itss) (g : LGR) :
    forEach docLine g lines = (itss.flatten.foldl (step valid false) g, .ok ()) := by
  induction h generalizing g with
  | nil => rfl
  | cons h1 h2 ih =>
    rw [forEach, doc_means (valid := valid) h1]
    simp only
    rw [ih]
    simp [List.foldl_append]

theorem proper_means {line : List Char} {its : List Item} (h : Means line its) : ∀ it ∈ its, Proper it := by
  cases h with
  | blank h => simp
  | comment h => simp
  | nothing h1 h2 h3 => simp
  | cps h1 h2 h3 h4 =>
    intro it hit
    obtain rfl := List.mem_singleton.1 hit
    exact h4

/-- **C75** A file with a code point or sequence per line is parsed without an exception escaping, and the
LGR is exactly what its lines mean: it contains the sequence of the code points noted in each line that is
not a comment, without attributes and variants, and nothing else. -/
theorem lines_exact (allowInvalid : Bool) (lines : List (List Char)) (itss : List (List Item))
    (h : List.Forall₂ Means lines itss) :
    (parseLines allowInvalid lines).2 = .ok () ∧
    Says (fun _ => false) false itss.flatten (parseLines allowInvalid lines).1 := by
  unfold parseLines
  rw [docs_fold (valid := fun _ => false) h]
  refine ⟨rfl, says_items _ _ _ _ ?_⟩
  intro it hit
  obtain ⟨its, h1, h2⟩ := List.mem_flatten.1 hit
  clear hit
  induction h with
  | nil => simp at h1
  | cons a b ih =>
    rcases List.mem_cons.1 h1 with rfl | h1
    · exact proper_means a it h2
    · exact ih h1

example : ((parseLines false ["U+0061 x U+0062".toList, "#U+0063".toList, "zz".toList]).1.rep.iter.map
    CharObj.cp) = [[0x61, 0x62]] := by decide +kernel

end C75

/-! ## C76: the choice of the parser -/

namespace C76
open Lgr Tables Text TableSyntax

/-- The line without comment and white space. -/
def Content (line l : List Char) : Prop := ∃ b, Upto '#' line b ∧ Trimmed b l

/-- A line that only RFC 3743 allows: it starts with a code point without `U+`, or with one with `U+` and
has a semicolon. -/
def Only3743 (line : List Char) : Prop :=
  ∃ l, Content line l ∧ ((∃ x ds r, Digits l x ds r) ∨ (∃ x, Notes l x) ∧ ';' ∈ l)

/-- A line that only RFC 4290 allows: it starts with `U+` and a code point, has a bar and no semicolon. -/
def Only4290 (line : List Char) : Prop :=
  ∃ l, Content line l ∧ (∃ x, Notes l x) ∧ ';' ∉ l ∧ '|' ∈ l

/-- A line that starts with `U+` and a code point. -/
def CodePoint (line : List Char) : Prop := ∃ l, Content line l ∧ ∃ x, Notes l x

theorem content_iff {line l : List Char} : Content line l ↔ strip ((splitOn '#' line).headD []) = l := by
  constructor
  · rintro ⟨b, h1, h2⟩
    rw [head_upto.1 h1, trimmed_iff.1 h2]
  · rintro rfl
    exact ⟨_, head_upto.2 rfl, trimmed_iff.2 rfl⟩

theorem notes_some {l : List Char} : (cpPrefix l).isSome = true ↔ ∃ x, Notes l x := by
  constructor
  · intro h
    obtain ⟨⟨x, r⟩, h⟩ := Option.isSome_iff_exists.1 h
    exact ⟨x, notes_iff.2 ⟨r, h⟩⟩
  · rintro ⟨x, h⟩
    obtain ⟨r, h⟩ := notes_iff.1 h
    rw [h]; rfl

theorem hexRun_digits {s : List Char} : (∃ d r, hexRun s = some (d, r)) ↔ ∃ x d r, Digits s x d r := by
  constructor
  · rintro ⟨d, r, h⟩
    obtain ⟨h1, h2, h3, h4, h5⟩ := hexRun_iff.1 h
    obtain ⟨ns, hns⟩ := forall_hex.2 h5
    exact ⟨_, d, r, h1, h2, h3, h4, ns, hns, rfl⟩
  · rintro ⟨x, d, r, h⟩
    exact ⟨d, r, (digits_iff.1 h).1⟩

theorem notes_hexRun {l : List Char} : (∃ x, Notes l x) ↔ ∃ s d r, l = 'U' :: '+' :: s ∧ hexRun s = some (d, r) := by
  constructor
  · rintro ⟨x, s, ds, r, h1, h2⟩
    exact ⟨s, ds, r, h1, (digits_iff.1 h2).1⟩
  · rintro ⟨s, d, r, h1, h2⟩
    obtain ⟨x, d, r, h⟩ := hexRun_digits.1 ⟨d, r, h2⟩
    exact ⟨x, s, d, r, h1, h⟩

theorem not_hex_U : isHex 'U' = false := by decide

theorem digits_head {l ds r : List Char} {x : Nat} (h : Digits l x ds r) : ∀ s, l ≠ 'U' :: s := by
  rintro s rfl
  obtain ⟨h1, h4, -, -, ns, h5, -⟩ := h
  cases ds with
  | nil => simp at h4
  | cons c ds =>
    simp only [List.cons_append, List.cons.injEq] at h1
    have := forall_hex.1 ⟨ns, h5⟩ c (by simp)
    rw [← h1.1, not_hex_U] at this
    simp at this

theorem optU_other {l : List Char} (h : ¬ ∃ t, l = 'U' :: '+' :: t) : optU l = ([], l) := by
  unfold optU
  split
  · rename_i t; exact absurd ⟨t, rfl⟩ h
  · rfl

theorem seqPart_some {l : List Char} : (seqPart l).isSome = true ↔
    (∃ x ds r, Digits l x ds r) ∨ ∃ x, Notes l x := by
  have key : (seqPart l).isSome = true ↔ ∃ d r, hexRun (optU l).2 = some (d, r) := by
    unfold seqPart
    cases hr : hexRun (optU l).2 with
    | none => simp
    | some p => simpa using ⟨p.1, p.2, rfl⟩
  rw [key]
  by_cases hU : ∃ t, l = 'U' :: '+' :: t
  · obtain ⟨t, rfl⟩ := hU
    rw [notes_hexRun]
    constructor
    · rintro ⟨d, r, h⟩; exact Or.inr ⟨t, d, r, rfl, h⟩
    · rintro (⟨x, d, r, h⟩ | ⟨s, d, r, he, h⟩)
      · exact absurd rfl (digits_head h _)
      · simp only [List.cons.injEq, true_and] at he
        subst he
        exact ⟨d, r, h⟩
  · rw [optU_other hU, hexRun_digits]
    constructor
    · exact Or.inl
    · rintro (h | ⟨x, s, ds, r, he, -⟩)
      · exact h
      · exact absurd ⟨s, he⟩ hU

theorem match_some {digit : Char → Bool} {l : List Char} : (match3743 digit l).isSome = (seqPart l).isSome := by
  unfold match3743
  cases seqPart l with
  | none => rfl
  | some p =>
    simp only
    split <;> rfl

theorem not_both {line : List Char} (h : Only3743 line) : ¬ Only4290 line := by
  rintro ⟨l, h1, ⟨x, h2⟩, h3, -⟩
  obtain ⟨l', h1', h4⟩ := h
  obtain rfl := (content_iff.1 h1').symm.trans (content_iff.1 h1)
  rcases h4 with ⟨y, ds, r, h4⟩ | ⟨-, h4⟩
  · obtain ⟨s, ds, r, he, -⟩ := h2
    exact digits_head h4 _ he
  · exact h3 h4

theorem first_line (digit : Char → Bool) (seen : Bool) (line : List Char) (ls : List (List Char)) :
    (Only3743 line → checkFormat digit seen (line :: ls) = some .rfc3743) ∧
    (Only4290 line → checkFormat digit seen (line :: ls) = some .rfc4290) ∧
    (¬ Only3743 line → ¬ Only4290 line → CodePoint line →
      checkFormat digit seen (line :: ls) = checkFormat digit true ls) ∧
    (¬ Only3743 line → ¬ Only4290 line → ¬ CodePoint line →
      checkFormat digit seen (line :: ls) = checkFormat digit seen ls) := by
  have hc : ∀ l, Content line l ↔ strip ((splitOn '#' line).headD []) = l := fun l => content_iff
  have h3 : Only3743 line ↔ (∃ x ds r, Digits (strip ((splitOn '#' line).headD [])) x ds r) ∨
      (∃ x, Notes (strip ((splitOn '#' line).headD [])) x) ∧ ';' ∈ strip ((splitOn '#' line).headD []) := by
    constructor
    · rintro ⟨l, h1, h2⟩; rw [(hc l).1 h1]; exact h2
    · intro h; exact ⟨_, (hc _).2 rfl, h⟩
  have h4 : Only4290 line ↔ (∃ x, Notes (strip ((splitOn '#' line).headD [])) x) ∧
      ';' ∉ strip ((splitOn '#' line).headD []) ∧ '|' ∈ strip ((splitOn '#' line).headD []) := by
    constructor
    · rintro ⟨l, h1, h2⟩; rw [(hc l).1 h1]; exact h2
    · intro h; exact ⟨_, (hc _).2 rfl, h⟩
  have h5 : CodePoint line ↔ ∃ x, Notes (strip ((splitOn '#' line).headD [])) x := by
    constructor
    · rintro ⟨l, h1, h2⟩; rw [(hc l).1 h1]; exact h2
    · intro h; exact ⟨_, (hc _).2 rfl, h⟩
  rw [h3, h4, h5]
  rw [checkFormat]
  generalize strip ((splitOn '#' line).headD []) = l
  rw [← notes_some, match_some]
  by_cases hn : (cpPrefix l).isSome = true
  · have hnd : ¬ ∃ x ds r, Digits l x ds r := by
      rintro ⟨x, ds, r, h⟩
      obtain ⟨y, s, d, r', he, -⟩ := notes_some.1 hn
      exact digits_head h _ he
    have hnn : (cpPrefix l).isNone = false := by
      rw [Option.isNone_eq_false_iff]; exact hn
    rw [if_neg (by simp [hnn]), if_pos hn]
    simp only [hn, true_and, hnd, false_or]
    by_cases hsemi : ';' ∈ l
    · simp [hsemi]
    · by_cases hbar : '|' ∈ l
      · simp [hsemi, hbar]
      · simp [hsemi, hbar]
  · have hnn : (cpPrefix l).isNone = true := by
      rw [Option.isNone_iff_eq_none]
      exact Option.not_isSome_iff_eq_none.1 hn
    have hsp : (seqPart l).isSome = true ↔ ∃ x ds r, Digits l x ds r := by
      rw [seqPart_some]
      constructor
      · rintro (h | h)
        · exact h
        · exact absurd (notes_some.2 h) hn
      · exact Or.inl
    have hn' : ¬ (cpPrefix l).isSome = true := hn
    by_cases hd : ∃ x ds r, Digits l x ds r
    · rw [if_pos ⟨hsp.2 hd, hnn⟩]
      exact ⟨fun _ => rfl, fun h => absurd h.1 hn', fun h => absurd (Or.inl hd) h, fun h => absurd (Or.inl hd) h⟩
    · rw [if_neg (fun h => hd (hsp.1 h.1)), if_neg hn']
      refine ⟨?_, fun h => absurd h.1 hn', fun _ _ h => absurd h hn', fun _ _ _ => rfl⟩
      rintro (h | h)
      · exact absurd h hd
      · exact absurd h.1 hn'

theorem checkFormat_exact (digit : Char → Bool) (lines : List (List Char)) (seen : Bool) :
    (checkFormat digit seen lines = some .rfc3743 ↔ ∃ pre line post, lines = pre ++ line :: post ∧
      Only3743 line ∧ ∀ l ∈ pre, ¬ Only3743 l ∧ ¬ Only4290 l) ∧
    (checkFormat digit seen lines = some .rfc4290 ↔ (∃ pre line post, lines = pre ++ line :: post ∧
      Only4290 line ∧ ∀ l ∈ pre, ¬ Only3743 l ∧ ¬ Only4290 l) ∨
      (∀ l ∈ lines, ¬ Only3743 l ∧ ¬ Only4290 l) ∧ (seen = true ∨ ∃ l ∈ lines, CodePoint l)) ∧
    checkFormat digit seen lines ≠ some .xml := by
  induction lines generalizing seen with
  | nil => cases seen <;> simp [checkFormat]
  | cons line ls ih =>
    obtain ⟨f1, f2, f3, f4⟩ := first_line digit seen line ls
    have hcons : ∀ Q : List Char → Prop, ¬ Only3743 line → ¬ Only4290 line → ¬ Q line →
        ((∃ pre l post, line :: ls = pre ++ l :: post ∧ Q l ∧ ∀ l ∈ pre, ¬ Only3743 l ∧ ¬ Only4290 l) ↔
        ∃ pre l post, ls = pre ++ l :: post ∧ Q l ∧ ∀ l ∈ pre, ¬ Only3743 l ∧ ¬ Only4290 l) := by
      intro Q n3 n4 nq
      constructor
      · rintro ⟨pre, l, post, h1, h2, h3⟩
        cases pre with
        | nil =>
          simp only [List.nil_append, List.cons.injEq] at h1
          exact absurd (h1.1 ▸ h2) nq
        | cons a pre =>
          simp only [List.cons_append, List.cons.injEq] at h1
          exact ⟨pre, l, post, h1.2, h2, fun l hl => h3 l (by simp [hl])⟩
      · rintro ⟨pre, l, post, rfl, h2, h3⟩
        exact ⟨line :: pre, l, post, rfl, h2, by
          intro l hl
          rcases List.mem_cons.1 hl with rfl | hl
          · exact ⟨n3, n4⟩
          · exact h3 l hl⟩
    have hhead : ∀ Q : List Char → Prop, (Only3743 line ∨ Only4290 line) → ¬ Q line →
        ¬ ∃ pre l post, line :: ls = pre ++ l :: post ∧ Q l ∧ ∀ l ∈ pre, ¬ Only3743 l ∧ ¬ Only4290 l := by
      rintro Q ho nq ⟨pre, l, post, h1, h2, h3⟩
      cases pre with
      | nil =>
        simp only [List.nil_append, List.cons.injEq] at h1
        exact nq (h1.1 ▸ h2)
      | cons a pre =>
        simp only [List.cons_append, List.cons.injEq] at h1
        have := h3 a (by simp)
        rw [← h1.1] at this
        rcases ho with h | h
        · exact this.1 h
        · exact this.2 h
    by_cases o3 : Only3743 line
    · have n4 := not_both o3
      rw [f1 o3]
      refine ⟨⟨fun _ => ⟨[], line, ls, rfl, o3, by simp⟩, fun _ => rfl⟩, ⟨fun h => by simp at h, ?_⟩, by simp⟩
      rintro (h | ⟨h, -⟩)
      · exact absurd h (hhead Only4290 (Or.inl o3) n4)
      · exact absurd o3 (h line (by simp)).1
    · by_cases o4 : Only4290 line
      · rw [f2 o4]
        refine ⟨⟨fun h => by simp at h, fun h => absurd h (hhead Only3743 (Or.inr o4) o3)⟩,
          ⟨fun _ => Or.inl ⟨[], line, ls, rfl, o4, by simp⟩, fun _ => rfl⟩, by simp⟩
      · have hall : (∀ l ∈ line :: ls, ¬ Only3743 l ∧ ¬ Only4290 l) ↔ ∀ l ∈ ls, ¬ Only3743 l ∧ ¬ Only4290 l := by
          simp [o3, o4]
        rw [hcons Only3743 o3 o4 o3, hcons Only4290 o3 o4 o4, hall]
        by_cases oc : CodePoint line
        · rw [f3 o3 o4 oc]
          obtain ⟨i1, i2, i3⟩ := ih true
          refine ⟨i1, ?_, i3⟩
          rw [i2]; simp [oc]
        · rw [f4 o3 o4 oc]
          obtain ⟨i1, i2, i3⟩ := ih seen
          refine ⟨i1, ?_, i3⟩
          rw [i2]; simp [oc]

/-- **C76** The parser chosen for a file that does not look like XML: that of RFC 3743 or of RFC 4290 if the
first line that only one of them allows is a line of this notation; without such lines, that of RFC 4290 if
a line starts with `U+` and a code point; else the XML parser. -/
theorem choice_exact (digit : Char → Bool) (lines : List (List Char)) :
    (findParser digit false lines = .rfc3743 ↔ ∃ pre line post, lines = pre ++ line :: post ∧
      Only3743 line ∧ ∀ l ∈ pre, ¬ Only3743 l ∧ ¬ Only4290 l) ∧
    (findParser digit false lines = .rfc4290 ↔ (∃ pre line post, lines = pre ++ line :: post ∧
      Only4290 line ∧ ∀ l ∈ pre, ¬ Only3743 l ∧ ¬ Only4290 l) ∨
      (∀ l ∈ lines, ¬ Only3743 l ∧ ¬ Only4290 l) ∧ ∃ l ∈ lines, CodePoint l) ∧
    (findParser digit false lines = .xml ↔ ∀ l ∈ lines, ¬ Only3743 l ∧ ¬ Only4290 l ∧ ¬ CodePoint l) := by
  obtain ⟨h1, h2, h3⟩ := checkFormat_exact digit lines false
  have hx : findParser digit false lines = .xml ↔ checkFormat digit false lines = none := by
    unfold findParser
    cases hc : checkFormat digit false lines with
    | none => simp
    | some k => rw [hc] at h3; cases k <;> simp_all
  have hk : ∀ k, k ≠ .xml → (findParser digit false lines = k ↔ checkFormat digit false lines = some k) := by
    intro k hk
    unfold findParser
    cases hc : checkFormat digit false lines with
    | none => simp [hk.symm]
    | some k' => simp
  refine ⟨by rw [hk _ (by simp), h1], by rw [hk _ (by simp), h2]; simp, ?_⟩
  rw [hx]
  constructor
  · intro hn
    rw [hn] at h1 h2
    simp only [reduceCtorEq, false_iff] at h1 h2
    rw [not_or] at h2
    have hall : ∀ l ∈ lines, ¬ Only3743 l ∧ ¬ Only4290 l := by
      clear hx hk h3 hn
      have key : ∀ n, ∀ pre post, lines = pre ++ post → pre.length = n → ∀ l ∈ pre, ¬ Only3743 l ∧ ¬ Only4290 l := by
        intro n
        induction n with
        | zero =>
          intro pre post _ hp l hl
          have : pre = [] := by simpa using hp
          simp [this] at hl
        | succ n ih =>
          intro pre post he hp l hl
          rcases List.eq_nil_or_concat pre with rfl | ⟨q, a, rfl⟩
          · simp at hp
          · rw [List.concat_eq_append] at he hp hl
            have hq := ih q (a :: post) (by simpa using he) (by simpa using hp)
            rcases List.mem_append.1 hl with hl | hl
            · exact hq l hl
            · obtain rfl := List.mem_singleton.1 hl
              exact ⟨fun h => h1 ⟨q, l, post, by simpa using he, h, hq⟩,
                fun h => h2.1 ⟨q, l, post, by simpa using he, h, hq⟩⟩
      exact key _ lines [] (by simp) rfl
    intro l hl
    exact ⟨(hall l hl).1, (hall l hl).2, fun h => h2.2 ⟨hall, Or.inr ⟨l, hl, h⟩⟩⟩
  · intro h
    cases hc : checkFormat digit false lines with
    | none => rfl
    | some k =>
      exfalso
      cases k with
      | xml => exact h3 hc
      | rfc3743 =>
        obtain ⟨pre, l, post, rfl, hl, -⟩ := h1.1 hc
        exact (h l (by simp)).1 hl
      | rfc4290 =>
        rcases h2.1 hc with ⟨pre, l, post, rfl, hl, -⟩ | ⟨-, hs | ⟨l, hl, hc⟩⟩
        · exact (h l (by simp)).2.1 hl
        · simp at hs
        · exact (h l hl).2.2 hc

/-- **C76** A file that looks like XML is given to the XML parser. -/
theorem xml_first (digit : Char → Bool) (lines : List (List Char)) : findParser digit true lines = .xml := rfl

example : findParser (fun _ => false) false ["# c".toList, "U+0061".toList, "U+0062|U+0063".toList] = .rfc4290 := by
  decide +kernel
example : findParser (fun _ => false) false ["U+0061".toList, "0062;0063;".toList] = .rfc3743 := by
  decide +kernel

end C76

/-! ## C36: lines with a bad base -/

namespace C36
open Lgr Tables Text LGR TableItems TableSyntax Validate

theorem forEach_append {σ α : Type} (f : σ → α → σ × Except Err Unit) (s : σ) (l m : List α) :
    forEach f s (l ++ m) = match forEach f s l with
      | (s', .ok ()) => forEach f s' m
      | (s', .error e) => (s', .error e) := by
  induction l generalizing s with
  | nil => rfl
  | cons a l ih =>
    rw [List.cons_append, forEach, forEach]
    rcases f s a with ⟨s', e | u⟩
    · rfl
    · exact ih s'

theorem forEach_remove {σ α : Type} (f : σ → α → σ × Except Err Unit) (s : σ) (pre post : List α) (a : α)
    (h : ∀ s, f s a = (s, .ok ())) : forEach f s (pre ++ a :: post) = forEach f s (pre ++ post) := by
  rw [forEach_append, forEach_append]
  rcases forEach f s pre with ⟨s', e | u⟩
  · rfl
  · simp only
    rw [forEach, h]

/-- **C36** (RFC 4290) A line whose base is not a sequence contributes nothing, if it has no variants.
Missing: lines with variants, for which this is wrong (`stale_base`, `unbound_base`). -/
theorem bad_base_4290_partial (force allowInvalid : Bool) (pre post : List (List Char)) (line b : List Char)
    (h : C73.Row line b []) (hb : ¬ ∃ s, C73.CharSays b s) :
    parse4290 force allowInvalid (pre ++ line :: post) = parse4290 force allowInvalid (pre ++ post) := by
  apply forEach_remove
  intro st
  unfold doc4290
  rw [C73.row_iff.2 ⟨b, [], h, rfl⟩]
  simp only [C73.charSays_none.2 hb]
  rfl

/-- **C36** violated (RFC 4290): the variant in the line with the bad base `U+0062-X` is added to the code
point of the line before. -/
theorem stale_base :
    ((parse4290 false false ["U+0061".toList, "U+0062-X|U+0063".toList]).1.1.rep.lookup [0x61]).map
      (fun c => c.getVariants.map Variant.cp) = some [[0x63]] ∧
    ((parse4290 false false ["U+0061".toList]).1.1.rep.lookup [0x61]).map
      (fun c => c.getVariants.map Variant.cp) = some [] := by decide +kernel

/-- **C36** violated (RFC 4290): in the first row, a bad base with a variant raises `UnboundLocalError`. -/
theorem unbound_base :
    (parse4290 false false ["U+0062-X|U+0063".toList, "U+0061".toList]).2 = .error .nameError := by
  decide +kernel

/-- **C36** (RFC 3743) A line whose base cannot be parsed contributes nothing, if its columns of variants are
empty. Missing: lines with variants, for which this is wrong (`stale_base_3743`, `unbound_base_3743`). -/
theorem bad_base_3743_partial (x : Rex) (valid : String → Bool) (force allowInvalid : Bool)
    (pre post : List (List Char)) (line : List Char) (r : Row3743) (h : line3743 x line = .row r)
    (hb : r.base = none) (hp : r.preferred = none) (ho : r.others = none) :
    parse3743 x valid force allowInvalid (pre ++ line :: post) =
      parse3743 x valid force allowInvalid (pre ++ post) := by
  apply forEach_remove
  intro st
  unfold doc3743
  rw [h]
  simp only [hb, hp, ho, insert3743]

/-- Digits, and files without `Reference` and `Version` lines. -/
def rex0 : Rex := ⟨fun c => '0' ≤ c && c ≤ '9', fun _ => none, fun _ => false⟩

/-- **C36** violated (RFC 3743): a space before the semicolon makes the base unreadable, the variant is added
to the code point of the line before. -/
theorem stale_base_3743 :
    ((parse3743 rex0 (fun _ => true) false false ["0078".toList, "0061 ;0062;".toList]).1.1.rep.lookup
      [0x78]).map (fun c => c.getVariants.map Variant.cp) = some [[0x62]] ∧
    ((parse3743 rex0 (fun _ => true) false false ["0078".toList]).1.1.rep.lookup
      [0x78]).map (fun c => c.getVariants.map Variant.cp) = some [] := by decide +kernel

/-- **C36** violated (RFC 3743): likewise in the first row, `UnboundLocalError` is raised. -/
theorem unbound_base_3743 :
    (parse3743 rex0 (fun _ => true) false false ["0061 ;0062;".toList, "0078".toList]).2 =
      .error .nameError := by decide +kernel

/-! Non-vacuity. -/

example : row4290 "U+0062-X # bad".toList = some ⟨none, []⟩ := by
  decide +kernel

end C36
end Lgr.Props

import Verif.Tables

/-!
# Syntax of tables

What splitting, stripping and the notation `U+0061` mean, independently of the functions of the model.
-/

namespace Lgr.Props.TableSyntax
open Lgr Tables Text

/-- `ps` are the pieces of `s` between separators `d`. -/
def Pieces (d : Char) (s : List Char) (ps : List (List Char)) : Prop :=
  ps ≠ [] ∧ (∀ p ∈ ps, d ∉ p) ∧ s = join d ps

/-- `p` is what is before the first `d` in `s`. -/
def Upto (d : Char) (s p : List Char) : Prop :=
  d ∉ p ∧ (s = p ∨ ∃ r, s = p ++ d :: r)

/-- `l` is `s` without the white space around it. -/
def Trimmed (s l : List Char) : Prop :=
  (∃ a b, s = a ++ l ++ b ∧ (∀ c ∈ a, isSpace c = true) ∧ ∀ c ∈ b, isSpace c = true) ∧
  (∀ c, l.head? = some c → isSpace c = false) ∧ ∀ c, l.getLast? = some c → isSpace c = false

/-- `ds` is the longest run of hexadecimal digits at the start of `s`, but at most 6, at least 4, and `x` is
its value; `r` is the rest. -/
def Digits (s : List Char) (x : Nat) (ds r : List Char) : Prop :=
  s = ds ++ r ∧ 4 ≤ ds.length ∧ ds.length ≤ 6 ∧
  (ds.length = 6 ∨ ∀ c, r.head? = some c → hexVal c = none) ∧
  ∃ ns, List.Forall₂ (fun c n => hexVal c = some n) ds ns ∧ x = valueOf 16 ns

/-- The text starts with `U+` and the number `x`. -/
def Notes (p : List Char) (x : Nat) : Prop :=
  ∃ s ds r, p = 'U' :: '+' :: s ∧ Digits s x ds r

/-! ## Splitting -/

theorem go_ne (d : Char) (cur s : List Char) : splitOn.go d cur s ≠ [] := by
  induction s generalizing cur with
  | nil => simp [splitOn.go]
  | cons c s ih =>
    rw [splitOn.go]
    split
    · simp
    · exact ih _

theorem go_pieces (d : Char) (cur s : List Char) (hc : d ∉ cur) :
    (∀ p ∈ splitOn.go d cur s, d ∉ p) ∧ cur.reverse ++ s = join d (splitOn.go d cur s) := by
  induction s generalizing cur with
  | nil => simp [splitOn.go, hc, join]
  | cons c s ih =>
    rw [splitOn.go]
    split
    · rename_i h
      subst h
      obtain ⟨h1, h2⟩ := ih [] (by simp)
      refine ⟨?_, ?_⟩
      · intro p hp
        rcases List.mem_cons.1 hp with rfl | hp
        · simpa using hc
        · exact h1 p hp
      · rcases hg : splitOn.go c [] s with _ | ⟨x, l⟩
        · exact absurd hg (go_ne _ _ _)
        · rw [hg] at h2
          simp only [List.reverse_nil, List.nil_append] at h2
          rw [join, ← h2]
    · rename_i h
      obtain ⟨h1, h2⟩ := ih (c :: cur) (by simp [hc, Ne.symm h])
      exact ⟨h1, by rw [← h2]; simp⟩

theorem pieces_iff {d : Char} {s : List Char} {ps : List (List Char)} :
    Pieces d s ps ↔ splitOn d s = ps := by
  constructor
  · rintro ⟨h1, h2, rfl⟩
    exact splitOn_join d ps h1 (fun w hw c hc he => h2 w hw (he ▸ hc))
  · rintro rfl
    have := go_pieces d [] s (by simp)
    exact ⟨go_ne _ _ _, this.1, by simpa [splitOn] using this.2⟩

theorem head_upto {d : Char} {s p : List Char} : Upto d s p ↔ (splitOn d s).headD [] = p := by
  have hp := pieces_iff.2 (rfl : splitOn d s = splitOn d s)
  rcases hs : splitOn d s with _ | ⟨x, l⟩
  · exact absurd hs (go_ne _ _ _)
  · rw [hs] at hp
    have hu : Upto d s x := by
      refine ⟨hp.2.1 x (by simp), ?_⟩
      cases l with
      | nil => exact Or.inl (by simpa [join] using hp.2.2)
      | cons y l => exact Or.inr ⟨_, by simpa [join] using hp.2.2⟩
    simp only [List.headD_cons]
    constructor
    · rintro ⟨h1, h2⟩
      obtain ⟨h3, h4⟩ := hu
      have key : ∀ (p q r : List Char), d ∉ p → p = q ++ d :: r → False := by
        rintro p q r h rfl; simp at h
      rcases h2 with h2 | ⟨r, h2⟩ <;> rcases h4 with h4 | ⟨r', h4⟩
      · rw [← h4, ← h2]
      · exact absurd (h2.symm.trans h4) (fun h => key _ _ _ h1 h)
      · exact absurd (h4.symm.trans h2) (fun h => key _ _ _ h3 h)
      · rw [h2] at h4
        rcases List.append_eq_append_iff.1 h4 with ⟨as, ha, hb⟩ | ⟨as, ha, hb⟩
        · cases as with
          | nil => simpa using ha
          | cons a as =>
            simp only [List.cons_append, List.cons.injEq] at hb
            rw [ha, ← hb.1] at h3; simp at h3
        · cases as with
          | nil => simpa using ha.symm
          | cons a as =>
            simp only [List.cons_append, List.cons.injEq] at hb
            rw [ha, ← hb.1] at h1; simp at h1
    · rintro rfl; exact hu

/-! ## Stripping -/

theorem dropWhile_split {α} (p : α → Bool) (l : List α) : ∃ a, l = a ++ l.dropWhile p ∧ (∀ x ∈ a, p x = true) ∧
    ∀ x, (l.dropWhile p).head? = some x → p x = false := by
  induction l with
  | nil => exact ⟨[], by simp⟩
  | cons y l ih =>
    by_cases h : p y = true
    · obtain ⟨a, h1, h2, h3⟩ := ih
      rw [List.dropWhile_cons_of_pos h]
      exact ⟨y :: a, by rw [List.cons_append, ← h1], by simpa [h] using h2, h3⟩
    · rw [List.dropWhile_cons_of_neg h]
      exact ⟨[], by simp, by simp, by simpa using h⟩

theorem dropWhile_app {α} {p : α → Bool} {a l : List α} (h : ∀ x ∈ a, p x = true)
    (h2 : ∀ x, l.head? = some x → p x = false) : (a ++ l).dropWhile p = l := by
  induction a with
  | nil =>
    cases l with
    | nil => rfl
    | cons y l => rw [List.nil_append, List.dropWhile_cons_of_neg (by simp [h2 y rfl])]
  | cons y a ih =>
    rw [List.cons_append, List.dropWhile_cons_of_pos (h y (by simp)), ih (fun x hx => h x (by simp [hx]))]

theorem trimmed_iff {s l : List Char} : Trimmed s l ↔ strip s = l := by
  constructor
  · rintro ⟨⟨a, b, rfl, ha, hb⟩, h1, h2⟩
    unfold strip
    cases l with
    | nil =>
      have : (a ++ [] ++ b).dropWhile isSpace = [] := by
        have := dropWhile_app (p := isSpace) (a := a ++ b) (l := []) (by
          intro x hx
          rcases List.mem_append.1 hx with h | h
          · exact ha x h
          · exact hb x h) (by simp)
        simpa using this
      rw [this]; rfl
    | cons y l =>
      rw [List.append_assoc, dropWhile_app ha (by simpa using h1 y rfl), List.reverse_append,
        dropWhile_app (by simpa using hb), List.reverse_reverse]
      intro x hx
      exact h2 x (by rw [← List.head?_reverse]; exact hx)
  · rintro rfl
    obtain ⟨a, h1, h2, h3⟩ := dropWhile_split isSpace s
    obtain ⟨b, h4, h5, h6⟩ := dropWhile_split isSpace (s.dropWhile isSpace).reverse
    have h7 : s.dropWhile isSpace = strip s ++ b.reverse := by
      have := congrArg List.reverse h4
      rw [List.reverse_reverse, List.reverse_append] at this
      exact this
    refine ⟨⟨a, b.reverse, ?_, h2, by simpa using h5⟩, ?_, ?_⟩
    · rw [List.append_assoc, ← h7]; exact h1
    · intro c hc
      apply h3
      rw [h7, List.head?_append, hc]; rfl
    · intro c hc
      apply h6
      unfold strip at hc
      rw [List.getLast?_reverse] at hc
      exact hc

/-! ## Code points -/

theorem takeWhile_split {α} (p : α → Bool) (l : List α) : (∀ x ∈ l.takeWhile p, p x = true) ∧
    ∀ x, (l.drop (l.takeWhile p).length).head? = some x → p x = false := by
  induction l with
  | nil => simp
  | cons y l ih =>
    by_cases h : p y = true
    · rw [List.takeWhile_cons_of_pos h]
      exact ⟨by simpa [h] using ih.1, by simpa using ih.2⟩
    · rw [List.takeWhile_cons_of_neg h]
      exact ⟨by simp, by simpa using h⟩

theorem mapM_hex_iff {ds : List Char} {ns : List Nat} :
    ds.mapM hexVal = some ns ↔ List.Forall₂ (fun c n => hexVal c = some n) ds ns := by
  induction ds generalizing ns with
  | nil => cases ns <;> simp
  | cons d ds ih =>
    rw [List.mapM_cons]
    cases hd : hexVal d with
    | none =>
      constructor
      · intro h; simp at h
      · intro h; cases h; simp_all
    | some n =>
      cases hm : ds.mapM hexVal with
      | none =>
        constructor
        · intro h; simp at h
        · intro h
          cases h with
          | cons h1 h2 => rw [ih.2 h2] at hm; simp at hm
      | some ms =>
        constructor
        · intro h
          have h : n :: ms = ns := by simpa using h
          subst h
          exact .cons hd (ih.1 hm)
        · intro h
          cases h with
          | cons h1 h2 =>
            rw [hd] at h1
            rw [ih.2 h2] at hm
            obtain rfl := Option.some.inj h1
            obtain rfl := Option.some.inj hm
            rfl

theorem parseHex_iff {ds : List Char} {x : Nat} (h : ds ≠ []) : parseHex ds = some x ↔
    ∃ ns, List.Forall₂ (fun c n => hexVal c = some n) ds ns ∧ x = valueOf 16 ns := by
  unfold parseHex
  split
  · exact absurd rfl h
  · rw [Option.map_eq_some_iff]
    constructor
    · rintro ⟨ns, h1, rfl⟩; exact ⟨ns, mapM_hex_iff.1 h1, rfl⟩
    · rintro ⟨ns, h1, rfl⟩; exact ⟨ns, mapM_hex_iff.2 h1, rfl⟩

theorem forall_hex {ds : List Char} : (∃ ns, List.Forall₂ (fun c n => hexVal c = some n) ds ns) ↔
    ∀ c ∈ ds, isHex c = true := by
  induction ds with
  | nil => simp
  | cons d ds ih =>
    constructor
    · rintro ⟨ns, h⟩
      cases h with
      | cons h1 h2 =>
        intro c hc
        rcases List.mem_cons.1 hc with rfl | hc
        · simp [isHex, h1]
        · exact ih.1 ⟨_, h2⟩ c hc
    · intro h
      obtain ⟨ns, h2⟩ := ih.2 (fun c hc => h c (by simp [hc]))
      have hd := h d (by simp)
      unfold isHex at hd
      obtain ⟨n, hn⟩ := Option.isSome_iff_exists.1 hd
      exact ⟨n :: ns, .cons hn h2⟩

/-- A run of digits as far as it goes, at most 6. -/
theorem hexRun_iff {s ds r : List Char} : hexRun s = some (ds, r) ↔
    s = ds ++ r ∧ 4 ≤ ds.length ∧ ds.length ≤ 6 ∧ (ds.length = 6 ∨ ∀ c, r.head? = some c → hexVal c = none) ∧
    ∀ c ∈ ds, isHex c = true := by
  obtain ⟨h1, h2⟩ := takeWhile_split isHex s
  have hpre : s = (s.takeWhile isHex) ++ s.drop (s.takeWhile isHex).length := by
    have := List.takeWhile_append_dropWhile (p := isHex) (l := s)
    conv_lhs => rw [← this]
    congr 1
    conv_rhs => rw [← this]
    rw [List.drop_append, List.drop_of_length_le (by simp)]
    simp
  constructor
  · intro h
    unfold hexRun at h
    split at h
    · rename_i hl
      simp only [Option.some.injEq, Prod.mk.injEq] at h
      obtain ⟨rfl, rfl⟩ := h
      refine ⟨?_, hl, by simp, ?_, fun c hc => h1 c (List.mem_of_mem_take hc)⟩
      · rw [List.length_take]
        conv_lhs => rw [← List.take_append_drop (min 6 (s.takeWhile isHex).length) s]
        congr 1
        have key : ∀ w t : List Char, s = w ++ t → s.take (min 6 w.length) = w.take 6 := by
          rintro w t rfl
          rw [List.take_append, Nat.sub_eq_zero_of_le (Nat.min_le_right _ _)]
          simp
        exact key _ _ hpre
      · by_cases h6 : 6 ≤ (s.takeWhile isHex).length
        · left; simp [h6]
        · right
          rw [List.take_of_length_le (by omega)]
          intro c hc
          have := h2 c hc
          unfold isHex at this
          simpa using this
    · simp at h
  · rintro ⟨rfl, h4, h6, hend, hhex⟩
    have htw : ((ds ++ r).takeWhile isHex).take 6 = ds := by
      have : (ds ++ r).takeWhile isHex = ds ++ r.takeWhile isHex := by
        rw [List.takeWhile_append_of_pos hhex]
      rw [this]
      rcases hend with h | h
      · rw [List.take_append, List.take_of_length_le (by omega), h]; simp
      · have : r.takeWhile isHex = [] := by
          cases r with
          | nil => rfl
          | cons c r => rw [List.takeWhile_cons_of_neg]; simp [isHex, h c rfl]
        rw [this, List.append_nil, List.take_of_length_le h6]
    unfold hexRun
    rw [htw, if_pos h4, List.drop_left]

theorem digits_iff {s ds r : List Char} {x : Nat} :
    Digits s x ds r ↔ hexRun s = some (ds, r) ∧ parseHex ds = some x := by
  rw [hexRun_iff]
  constructor
  · rintro ⟨h1, h2, h3, h4, ns, h5, h6⟩
    refine ⟨⟨h1, h2, h3, h4, forall_hex.1 ⟨ns, h5⟩⟩, ?_⟩
    rw [parseHex_iff (by rintro rfl; simp at h2)]
    exact ⟨ns, h5, h6⟩
  · rintro ⟨⟨h1, h2, h3, h4, h5⟩, h6⟩
    rw [parseHex_iff (by rintro rfl; simp at h2)] at h6
    exact ⟨h1, h2, h3, h4, h6⟩

theorem notes_iff {p : List Char} {x : Nat} : Notes p x ↔ ∃ r, cpPrefix p = some (x, r) := by
  constructor
  · rintro ⟨s, ds, r, rfl, h⟩
    rw [digits_iff] at h
    exact ⟨r, by simp [cpPrefix, h.1, h.2]⟩
  · rintro ⟨r, h⟩
    unfold cpPrefix at h
    split at h
    · rename_i s
      split at h
      · simp at h
      · rename_i d r' hd
        split at h
        · simp at h
        · rename_i y hy
          simp only [Option.some.injEq, Prod.mk.injEq] at h
          obtain ⟨rfl, rfl⟩ := h
          exact ⟨s, d, r', rfl, digits_iff.2 ⟨hd, hy⟩⟩
    · simp at h

theorem mapM_opt_iff {α β} {f : α → Option β} {R : α → β → Prop} (hR : ∀ a b, f a = some b ↔ R a b)
    {l : List α} {m : List β} : l.mapM f = some m ↔ List.Forall₂ R l m := by
  induction l generalizing m with
  | nil => cases m <;> simp
  | cons a l ih =>
    rw [List.mapM_cons]
    constructor
    · intro h
      cases ha : f a with
      | none => rw [ha] at h; simp at h
      | some b =>
        cases hm : l.mapM f with
        | none => rw [ha, hm] at h; simp at h
        | some bs =>
          rw [ha, hm] at h
          have h : b :: bs = m := by simpa using h
          subst h
          exact .cons ((hR a b).1 ha) (ih.1 hm)
    · intro h
      cases h with
      | cons h1 h2 => rw [(hR _ _).2 h1, ih.2 h2]; rfl

end Lgr.Props.TableSyntax

import Verif.Props.Classes

/-!
# Rules match what RFC 7940 says they match
-/

namespace Lgr.C63
open Lgr Matcher

/-! ## Specification (RFC 7940, 6.3 and 6.4) -/

/-- `n` times in a row. -/
def Times (R : Nat → Nat → Prop) : Nat → Nat → Nat → Prop
  | 0, i, j => i = j
  | n + 1, i, j => ∃ k, R i k ∧ Times R n k j

/-- As often as the count attribute says. -/
def Counted (R : Nat → Nat → Prop) : Count → Nat → Nat → Prop
  | .none, i, j => R i j
  | .exact n, i, j => Times R n i j
  | .range lo hi, i, j => ∃ n, lo ≤ n ∧ n ≤ hi ∧ Times R n i j
  | .atLeast lo, i, j => ∃ n, lo ≤ n ∧ Times R n i j

/-- What rules mean: the label, the meaning of classes, of named rules, and of the anchor. -/
structure World where
  label : Seq
  cls : Cls → Nat → Prop
  rule : String → Nat → Nat → Prop
  anchor : Nat → Nat → Prop

mutual

/-- The matcher matches the part of the label from position `i` up to position `j`. -/
def Holds (w : World) : Matcher → Nat → Nat → Prop
  | .start, i, j => i = 0 ∧ j = i
  | .fin, i, j => w.label.length ≤ i ∧ j = i
  | .anchor, i, j => w.anchor i j
  | .any c, i, j => Counted (fun i j => i < w.label.length ∧ j = i + 1) c i j
  | .char cps c, i, j => Counted (fun i j => j = i + cps.length ∧ cps <+: w.label.drop i) c i j
  | .ahead ms, i, j => (∃ k, HoldsSeq w ms i k) ∧ j = i
  | .behind ms, i, j => (∃ k, HoldsSeq w ms k i) ∧ j = i
  | .choice ms c, i, j => Counted (HoldsSome w ms) c i j
  | .cls k c, i, j => Counted (fun i j => ∃ x, w.label[i]? = some x ∧ w.cls k x ∧ j = i + 1) c i j
  | .rule _ _ (some n) _ c, i, j => Counted (w.rule n) c i j
  | .rule _ _ none ms c, i, j => Counted (HoldsSeq w ms) c i j

/-- One after the other. -/
def HoldsSeq (w : World) : List Matcher → Nat → Nat → Prop
  | [], i, j => i = j
  | m :: ms, i, j => ∃ k, Holds w m i k ∧ HoldsSeq w ms k j

/-- One of them. -/
def HoldsSome (w : World) : List Matcher → Nat → Nat → Prop
  | [], _, _ => False
  | m :: ms, i, j => Holds w m i j ∨ HoldsSome w ms i j

end

mutual

/-- Something holds of all classes in a matcher; choices, literals and rules without `by-ref` are not
empty. -/
def AllCls (P : Cls → Prop) : Matcher → Prop
  | .char cps _ => cps ≠ []
  | .ahead ms => AllClsL P ms
  | .behind ms => AllClsL P ms
  | .choice ms _ => ms ≠ [] ∧ AllClsL P ms
  | .cls k _ => P k
  | .rule _ _ br ms _ => (br = none → ms ≠ []) ∧ AllClsL P ms
  | _ => True

/-- The same for lists. -/
def AllClsL (P : Cls → Prop) : List Matcher → Prop
  | [] => True
  | m :: ms => AllCls P m ∧ AllClsL P ms

end

/-- The meaning of classes and named rules agrees with their definitions. -/
structure Agrees (db : String → Except Err CpSet) (lk : Lookups) (w : World) : Prop where
  cls : ∀ fuel k s, Cls.getSet db lk.classes fuel k = .ok s → ∀ x, s x = true ↔ w.cls k x
  rule : ∀ n m, dget lk.rules n = some m → ∀ i j, w.rule n i j ↔ Holds w m i j

/-- There is no anchor in the matcher or the rules it refers to. -/
inductive AnchorFree (lk : Lookups) : Matcher → Prop
  | start : AnchorFree lk .start
  | fin : AnchorFree lk .fin
  | any (c : Count) : AnchorFree lk (.any c)
  | char (cps : Seq) (c : Count) : AnchorFree lk (.char cps c)
  | ahead (ms : List Matcher) (h : ∀ m ∈ ms, AnchorFree lk m) : AnchorFree lk (.ahead ms)
  | behind (ms : List Matcher) (h : ∀ m ∈ ms, AnchorFree lk m) : AnchorFree lk (.behind ms)
  | choice (ms : List Matcher) (c : Count) (h : ∀ m ∈ ms, AnchorFree lk m) : AnchorFree lk (.choice ms c)
  | cls (k : Cls) (c : Count) : AnchorFree lk (.cls k c)
  | ref (id : Nat) (nm : Option String) (n : String) (ms : List Matcher) (c : Count) (m : Matcher)
      (h : dget lk.rules n = some m) (hm : AnchorFree lk m) : AnchorFree lk (.rule id nm (some n) ms c)
  | rule (id : Nat) (nm : Option String) (ms : List Matcher) (c : Count) (h : ∀ m ∈ ms, AnchorFree lk m) :
      AnchorFree lk (.rule id nm none ms c)

/-- The class has code points. -/
def Inhabited (w : World) (k : Cls) : Prop := ∃ x, x < 0x110000 ∧ w.cls k x

/-- A literal occurrence of the anchor. -/
def Occurs (label a : Seq) (i j : Nat) : Prop := a <+: label.drop i ∧ j = i + a.length

/-! ## Lemmas -/

/-- An induction principle for matchers. -/
theorem matcher_ind {motive : Matcher → Prop} (h1 : motive .start) (h2 : motive .fin) (h3 : motive .anchor)
    (h4 : ∀ c, motive (.any c)) (h5 : ∀ cps c, motive (.char cps c))
    (h6 : ∀ ms, (∀ m ∈ ms, motive m) → motive (.ahead ms))
    (h7 : ∀ ms, (∀ m ∈ ms, motive m) → motive (.behind ms))
    (h8 : ∀ ms c, (∀ m ∈ ms, motive m) → motive (.choice ms c))
    (h9 : ∀ k c, motive (.cls k c))
    (h10 : ∀ id nm br ms c, (∀ m ∈ ms, motive m) → motive (.rule id nm br ms c)) : ∀ m, motive m := by
  intro m
  refine Matcher.rec (motive_1 := motive) (motive_2 := fun ms => ∀ m ∈ ms, motive m)
    h1 h2 h3 h4 h5 h6 h7 h8 h9 h10 (by simp) ?_ m
  intro c cs h1 h2 d hd
  rcases List.mem_cons.mp hd with rfl | hd
  · exact h1
  · exact h2 d hd

theorem allClsL_iff {P : Cls → Prop} {ms : List Matcher} : AllClsL P ms ↔ ∀ m ∈ ms, AllCls P m := by
  induction ms with
  | nil => simp [AllClsL]
  | cons m ms ih => simp [AllClsL, ih]

theorem times_congr {R S : Nat → Nat → Prop} (h : ∀ i j, R i j ↔ S i j) (n i j : Nat) :
    Re.Iter R n i j ↔ Times S n i j := by
  induction n generalizing i with
  | zero => rfl
  | succ n ih => simp only [Re.Iter, Times, h, ih]

/-- Steps go forward and stay in the label. -/
def Fwd (len : Nat) (R : Nat → Nat → Prop) : Prop := ∀ i j, R i j → i ≤ j ∧ j ≤ max i len

theorem fwd_times {len : Nat} {R : Nat → Nat → Prop} (h : Fwd len R) (n : Nat) : Fwd len (Times R n) := by
  induction n with
  | zero => intro i j hij; cases hij; omega
  | succ n ih =>
    rintro i j ⟨k, h1, h2⟩
    have a := h i k h1
    have b := ih k j h2
    omega

theorem fwd_counted {len : Nat} {R : Nat → Nat → Prop} (h : Fwd len R) (c : Count) : Fwd len (Counted R c) := by
  cases c with
  | none => exact h
  | exact n => exact fwd_times h n
  | range lo hi => rintro i j ⟨n, -, -, h'⟩; exact fwd_times h n i j h'
  | atLeast lo => rintro i j ⟨n, -, h'⟩; exact fwd_times h n i j h'

/-- More steps than positions: one of them goes nowhere. -/
theorem shorten {len : Nat} {R : Nat → Nat → Prop} (h : Fwd len R) : ∀ (n i j : Nat),
    Times R (n + 1) i j → j - i < n + 1 → Times R n i j := by
  intro n
  induction n with
  | zero =>
    rintro i j ⟨k, h1, rfl⟩ hlt
    have := h i k h1
    show i = k
    omega
  | succ n ih =>
    rintro i j ⟨k, h1, h2⟩ hlt
    by_cases hik : i = k
    · subst hik; exact h2
    · have a := h i k h1
      have b := fwd_times h (n + 1) k j h2
      exact ⟨k, h1, ih k j h2 (by omega)⟩

theorem shorten_to {len : Nat} {R : Nat → Nat → Prop} (h : Fwd len R) (hlen : len ≤ labelMax) {lo : Nat}
    (hlo : lo ≤ labelMax) {n i j : Nat} (hn : lo ≤ n) (ht : Times R n i j) :
    ∃ n, lo ≤ n ∧ n ≤ labelMax ∧ Times R n i j := by
  induction n with
  | zero => exact ⟨0, hn, by omega, ht⟩
  | succ n ih =>
    by_cases hle : n + 1 ≤ labelMax
    · exact ⟨n + 1, hn, hle, ht⟩
    · have hb := fwd_times h (n + 1) i j ht
      exact ih (by omega) (shorten h n i j ht (by omega))

/-- Counts. -/
theorem counted_iff {label : Seq} {r : Re} {R : Nat → Nat → Prop} (hR : ∀ i j, r.Match label i j ↔ R i j)
    (hf : Fwd label.length R) (hlen : label.length ≤ labelMax) (beh : Bool) (c : Count)
    (hc : (withCount beh c r).compiles = true) (i j : Nat) :
    (withCount beh c r).Match label i j ↔ Counted R c i j := by
  have hT : ∀ n, Re.Iter (fun x y => Re.Match label r x y) n i j ↔ Times R n i j := by
    intro n
    exact times_congr hR n i j
  cases c with
  | none => simpa [withCount, Count.bounds, Counted] using hR i j
  | exact n =>
    simp only [withCount, Count.bounds, Re.Match, Counted, Option.some.injEq, forall_eq', hT]
    constructor
    · rintro ⟨m, h1, h2, h3⟩
      have : m = n := by omega
      exact this ▸ h3
    · intro h; exact ⟨n, le_refl _, le_refl _, h⟩
  | range lo hi =>
    simp only [withCount, Count.bounds, Re.Match, Counted, Option.some.injEq, forall_eq', hT]
  | atLeast lo =>
    cases beh with
    | false => simp [withCount, Count.bounds, Re.Match, Counted, hT]
    | true =>
      simp only [withCount, Count.bounds, if_true, Re.Match, Counted, Option.some.injEq, forall_eq', hT]
      simp only [withCount, Count.bounds, if_true, Re.compiles, Bool.and_eq_true, decide_eq_true_eq] at hc
      constructor
      · rintro ⟨n, h1, -, h3⟩; exact ⟨n, h1, h3⟩
      · rintro ⟨n, h1, h3⟩; exact shorten_to hf hlen hc.2 h1 h3

theorem subst_withCount (a : Seq) (beh : Bool) (c : Count) (r : Re) :
    (withCount beh c r).subst a = withCount beh c (r.subst a) := by
  unfold withCount
  cases c.bounds beh with
  | none => rfl
  | some p => rfl

theorem subst_seqs (a : Seq) (rs : List Re) : (Re.seqs rs).subst a = Re.seqs (rs.map (Re.subst a)) := by
  induction rs with
  | nil => rfl
  | cons r rs ih => simp [Re.seqs, Re.subst, ih]

theorem subst_alts (a : Seq) (rs : List Re) : (Re.alts rs).subst a = Re.alts (rs.map (Re.subst a)) := by
  match rs with
  | [] => rfl
  | [r] => rfl
  | r :: s :: l =>
    have := subst_alts a (s :: l)
    simp only [List.map_cons] at this ⊢
    simp [Re.alts, Re.subst, this]

theorem match_seqs {label : Seq} {w : World} {rs : List Re} {ms : List Matcher}
    (h : List.Forall₂ (fun m r => ∀ i j, Re.Match label r i j ↔ Holds w m i j) ms rs) (i j : Nat) :
    (Re.seqs rs).Match label i j ↔ HoldsSeq w ms i j := by
  induction h generalizing i with
  | nil => rfl
  | cons h1 _ ih => simp only [Re.seqs, Re.Match, HoldsSeq, h1, ih]

theorem match_alts {label : Seq} {w : World} {rs : List Re} {ms : List Matcher}
    (h : List.Forall₂ (fun m r => ∀ i j, Re.Match label r i j ↔ Holds w m i j) ms rs) (hne : ms ≠ [])
    (i j : Nat) : (Re.alts rs).Match label i j ↔ HoldsSome w ms i j := by
  induction h with
  | nil => exact absurd rfl hne
  | @cons m r ms rs h1 h2 ih =>
    cases h2 with
    | nil => simp [Re.alts, Re.Match, HoldsSome, h1]
    | @cons m' r' ms' rs' h3 h4 =>
      rw [Re.alts, HoldsSome, Re.Match, Re.Match, h1, ih (by simp)]

theorem compiles_withCount {beh : Bool} {c : Count} {r : Re} (h : (withCount beh c r).compiles = true) :
    r.compiles = true := by
  unfold withCount at h
  cases hb : c.bounds beh with
  | none => simpa [hb] using h
  | some p =>
    simp only [hb, Re.compiles, Bool.and_eq_true] at h
    exact h.1

theorem compiles_seqs {rs : List Re} (h : (Re.seqs rs).compiles = true) : ∀ r ∈ rs, r.compiles = true := by
  induction rs with
  | nil => simp
  | cons r rs ih =>
    simp only [Re.seqs, Re.compiles, Bool.and_eq_true] at h
    intro r' hr'
    rcases List.mem_cons.mp hr' with rfl | hr'
    · exact h.1
    · exact ih h.2 r' hr'

theorem compiles_alts : ∀ {rs : List Re}, (Re.alts rs).compiles = true → ∀ r ∈ rs, r.compiles = true
  | [], _ => by simp
  | [r], h => by
    simp only [Re.alts, Re.compiles] at h
    simpa using h
  | r :: s :: l, h => by
    simp only [Re.alts, Re.compiles, Bool.and_eq_true] at h
    intro r' hr'
    rcases List.mem_cons.mp hr' with rfl | hr'
    · exact h.1
    · exact compiles_alts h.2 r' hr'

theorem compiles_subst (a : Seq) (r : Re) : (r.subst a).compiles = r.compiles := by
  induction r with
  | rep r lo hi ih => simp [Re.subst, Re.compiles, ih]
  | _ => simp_all [Re.subst, Re.compiles]

/-- The regular expression of the implementation goes forward. -/
theorem match_fwd (label : Seq) (r : Re) : Fwd label.length (r.Match label) := by
  induction r with
  | empty => intro i j h; cases h; omega
  | lit cs =>
    rintro i j ⟨h, rfl⟩
    have := h.length_le
    simp only [List.length_drop] at this
    omega
  | set s =>
    rintro i j ⟨c, h, -, rfl⟩
    have := (List.getElem?_eq_some_iff.mp h).1
    omega
  | any =>
    rintro i j ⟨c, h, -, rfl⟩
    have := (List.getElem?_eq_some_iff.mp h).1
    omega
  | bol => rintro i j ⟨-, rfl⟩; omega
  | eol => rintro i j ⟨-, rfl⟩; omega
  | anchor =>
    rintro i j ⟨h, rfl⟩
    have := h.length_le
    simp only [List.length_drop] at this
    omega
  | ahead r _ => rintro i j ⟨-, rfl⟩; omega
  | behind r _ => rintro i j ⟨-, rfl⟩; omega
  | group r ih => exact ih
  | alt r s ih1 ih2 =>
    rintro i j (h | h)
    · exact ih1 i j h
    · exact ih2 i j h
  | seq r s ih1 ih2 =>
    rintro i j ⟨k, h1, h2⟩
    have a := ih1 i k h1
    have b := ih2 k j h2
    omega
  | rep r lo hi ih =>
    rintro i j ⟨n, -, -, h⟩
    exact fwd_times ih n i j ((times_congr (fun _ _ => Iff.rfl) n i j).mp h)

theorem isEmpty_false {s : CpSet} {x : Nat} (hx : x < 0x110000) (h : s x = true) : s.isEmpty = false := by
  by_contra hc
  rw [Bool.not_eq_false, CpSet.isEmpty, List.all_eq_true] at hc
  have := hc x (List.mem_range.mpr hx)
  simp [h] at this

theorem forall2_map {α β γ : Type} {R : α → β → Prop} {S : α → γ → Prop} {f : β → γ} {l : List α} {r : List β}
    (h : List.Forall₂ R l r) (hS : ∀ a ∈ l, ∀ b ∈ r, R a b → S a (f b)) : List.Forall₂ S l (r.map f) := by
  induction h with
  | nil => exact .nil
  | @cons a b l r h1 h2 ih =>
    refine .cons (hS a (by simp) b (by simp) h1) (ih ?_)
    intro a' ha' b' hb'
    exact hS a' (by simp [ha']) b' (by simp [hb'])

/-- The pattern of a matcher has the meaning RFC 7940 gives to the matcher, in labels of at most 63 code
points without line terminators. -/
theorem pattern_exact {db : String → Except Err CpSet} {lk : Lookups} {w : World} {a : Seq}
    (hw : Agrees db lk w) (hlen : w.label.length ≤ labelMax) (hnl : ∀ c ∈ w.label, Re.newline c = false)
    (hlk : ∀ n m, dget lk.rules n = some m → AllCls (Inhabited w) m) :
    ∀ (fuel : Nat) (beh : Bool) (m : Matcher) (p : Re), AllCls (Inhabited w) m →
      ((∀ i j, w.anchor i j ↔ Occurs w.label a i j) ∨ AnchorFree lk m) →
      pattern db lk fuel beh m = .ok p → p.compiles = true →
      ∀ i j, (p.subst a).Match w.label i j ↔ Holds w m i j := by
  intro fuel
  induction fuel with
  | zero => intro beh m p _ _ h; simp [pattern] at h
  | succ fuel ih =>
    intro beh m p hm ha h hc i j
    have nl : ∀ (i : Nat) c, w.label[i]? = some c → Re.newline c = false := fun i c hi =>
      hnl c (List.mem_of_getElem? hi)
    have lists : ∀ beh ms rs, AllClsL (Inhabited w) ms →
        ((∀ i j, w.anchor i j ↔ Occurs w.label a i j) ∨ ∀ m ∈ ms, AnchorFree lk m) → ms.mapM (pattern db lk fuel beh) = .ok rs →
        (∀ r ∈ rs, r.compiles = true) →
        List.Forall₂ (fun m r => ∀ i j, Re.Match w.label r i j ↔ Holds w m i j) ms (rs.map (Re.subst a)) := by
      intro beh ms rs hms ha hrs hcs
      refine forall2_map (C42.mapM_ok.mp hrs) ?_
      intro m hm r hr hmr
      exact ih beh m r (allClsL_iff.mp hms m hm) (ha.imp id (fun h => h m hm)) hmr (hcs r hr)
    cases m with
    | start =>
      rw [pattern] at h; cases h
      rfl
    | fin =>
      rw [pattern] at h; cases h
      simp only [Re.subst, Re.Match, Holds]
      constructor
      · rintro ⟨h, hj⟩
        refine ⟨?_, hj⟩
        rcases h with h | ⟨c, h, hn⟩ | h
        · simpa using h
        · have hmem : c ∈ w.label := List.mem_of_mem_drop (by rw [h]; simp : c ∈ w.label.drop i)
          rw [hnl c hmem] at hn; cases hn
        · have hmem : 0xD ∈ w.label := List.mem_of_mem_drop (by rw [h]; simp : 0xD ∈ w.label.drop i)
          have := hnl _ hmem
          simp [Re.newline] at this
      · rintro ⟨h, rfl⟩
        exact ⟨.inl (List.drop_eq_nil_of_le h), rfl⟩
    | anchor =>
      rw [pattern] at h; cases h
      rcases ha with ha | ha
      · simp only [Re.subst, Re.Match, Holds, ha, Occurs]
      · cases ha
    | any c =>
      rw [pattern] at h; cases h
      rw [subst_withCount]
      have hR : ∀ i j, Re.any.Match w.label i j ↔ (i < w.label.length ∧ j = i + 1) := by
        intro i j
        simp only [Re.Match]
        constructor
        · rintro ⟨c, h, -, rfl⟩; exact ⟨(List.getElem?_eq_some_iff.mp h).1, rfl⟩
        · rintro ⟨h, rfl⟩
          have hg : w.label[i]? = some w.label[i] := List.getElem?_eq_getElem h
          exact ⟨_, hg, nl i _ hg, rfl⟩
      refine counted_iff hR ?_ hlen beh c ?_ i j
      · intro i j h; rw [← hR] at h; exact match_fwd _ _ i j h
      · rw [← compiles_subst a, subst_withCount] at hc; exact hc
    | char cps c =>
      rw [pattern] at h; cases h
      rw [subst_withCount]
      have hR : ∀ i j, (Re.lit cps).Match w.label i j ↔ (j = i + cps.length ∧ cps <+: w.label.drop i) := by
        intro i j
        simp only [Re.Match]
        exact and_comm
      refine counted_iff hR ?_ hlen beh c ?_ i j
      · intro i j h; rw [← hR] at h; exact match_fwd _ _ i j h
      · rw [← compiles_subst a, subst_withCount] at hc; exact hc
    | ahead ms =>
      rw [pattern] at h
      cases hms : ms.mapM (pattern db lk fuel false) with
      | error e => simp [hms] at h
      | ok rs =>
        simp only [hms] at h; cases h
        have hl := lists false ms rs (by simpa [AllCls] using hm)
          (ha.imp id (fun h => by cases h; assumption)) hms (compiles_seqs (by simpa [Re.compiles] using hc))
        simp only [Re.subst, Re.Match, Holds, subst_seqs, match_seqs hl]
    | behind ms =>
      rw [pattern] at h
      cases hms : ms.mapM (pattern db lk fuel true) with
      | error e => simp [hms] at h
      | ok rs =>
        simp only [hms] at h; cases h
        have hl := lists true ms rs (by simpa [AllCls] using hm)
          (ha.imp id (fun h => by cases h; assumption)) hms (compiles_seqs (by simpa [Re.compiles] using hc))
        simp only [Re.subst, Re.Match, Holds, subst_seqs, match_seqs hl]
    | choice ms c =>
      rw [pattern] at h
      cases hms : ms.mapM (pattern db lk fuel beh) with
      | error e => simp [hms] at h
      | ok rs =>
        simp only [hms] at h; cases h
        rw [AllCls] at hm
        have hl := lists beh ms rs hm.2 (ha.imp id (fun h => by cases h; assumption)) hms (compiles_alts (by simpa [Re.compiles] using compiles_withCount hc))
        rw [subst_withCount]
        have hR : ∀ i j, ((Re.group (Re.alts rs)).subst a).Match w.label i j ↔ HoldsSome w ms i j := by
          intro i j
          simp only [Re.subst, Re.Match, subst_alts]
          exact match_alts hl hm.1 i j
        refine counted_iff hR ?_ hlen beh c ?_ i j
        · intro i j h; rw [← hR] at h; exact match_fwd _ _ i j h
        · rw [← compiles_subst a, subst_withCount] at hc; exact hc
    | cls k c =>
      rw [pattern] at h
      cases hk : classPattern db lk fuel k with
      | error e => simp [hk] at h
      | ok r =>
        simp only [hk] at h; cases h
        rw [classPattern] at hk
        cases hs : Cls.getSet db lk.classes fuel k with
        | error e => simp [hs] at hk
        | ok s =>
          simp only [hs, Except.ok.injEq] at hk
          have hset := hw.cls fuel k s hs
          rw [AllCls] at hm
          obtain ⟨x, hx1, hx2⟩ := hm
          have hne := isEmpty_false hx1 ((hset x).mpr hx2)
          rw [hne] at hk
          simp only [Bool.false_eq_true, if_false] at hk
          subst hk
          rw [subst_withCount]
          have hR : ∀ i j, ((Re.set s).subst a).Match w.label i j ↔
              ∃ x, w.label[i]? = some x ∧ w.cls k x ∧ j = i + 1 := by
            intro i j
            simp only [Re.subst, Re.Match, hset]
          refine counted_iff hR ?_ hlen beh c ?_ i j
          · intro i j h; rw [← hR] at h; exact match_fwd _ _ i j h
          · rw [← compiles_subst a, subst_withCount] at hc; exact hc
    | rule id nm br ms c =>
      cases br with
      | some n =>
        rw [pattern.eq_def] at h
        simp only at h
        cases hd : dget lk.rules n with
        | none => simp [hd] at h
        | some m =>
          simp only [hd] at h
          cases hp : pattern db lk fuel beh m with
          | error e => simp [hp] at h
          | ok r =>
            simp only [hp] at h; cases h
            rw [subst_withCount, Holds]
            have hR : ∀ i j, (r.subst a).Match w.label i j ↔ w.rule n i j := by
              intro i j
              rw [hw.rule n m hd]
              exact ih beh m r (hlk n m hd)
                (ha.imp (fun h => h) (fun h => by cases h with | ref _ _ _ _ _ m' h1 h2 => rw [hd] at h1; cases h1; exact h2))
                hp (compiles_withCount hc) i j
            refine counted_iff hR ?_ hlen beh c ?_ i j
            · intro i j h; rw [← hR] at h; exact match_fwd _ _ i j h
            · rw [← compiles_subst a, subst_withCount] at hc; exact hc
      | none =>
        rw [pattern.eq_def] at h
        simp only at h
        cases hms : ms.mapM (pattern db lk fuel beh) with
        | error e => simp [hms] at h
        | ok rs =>
          simp only [hms] at h; cases h
          rw [AllCls] at hm
          have hl := lists beh ms rs hm.2 (ha.imp (fun h => h) (fun h => by cases h; assumption)) hms (compiles_seqs (compiles_withCount hc))
          rw [subst_withCount, Holds]
          have hR : ∀ i j, ((Re.seqs rs).subst a).Match w.label i j ↔ HoldsSeq w ms i j := by
            intro i j
            rw [subst_seqs]
            exact match_seqs hl i j
          refine counted_iff hR ?_ hlen beh c ?_ i j
          · intro i j h; rw [← hR] at h; exact match_fwd _ _ i j h
          · rw [← compiles_subst a, subst_withCount] at hc; exact hc


/-- The pattern of a matcher that is not empty is not empty. -/
theorem pattern_not_blank {db : String → Except Err CpSet} {lk : Lookups} {w : World}
    (hw : Agrees db lk w) (hlk : ∀ n m, dget lk.rules n = some m → AllCls (Inhabited w) m) :
    ∀ (fuel : Nat) (beh : Bool) (m : Matcher) (p : Re), AllCls (Inhabited w) m →
      pattern db lk fuel beh m = .ok p → p.blank = false := by
  have wc : ∀ beh c r, r.blank = false → (withCount beh c r).blank = false := by
    intro beh c r h
    unfold withCount
    cases c.bounds beh with
    | none => exact h
    | some p => rfl
  intro fuel
  induction fuel with
  | zero => intro beh m p _ h; simp [pattern] at h
  | succ fuel ih =>
    intro beh m p hm h
    cases m with
    | start => rw [pattern] at h; cases h; rfl
    | fin => rw [pattern] at h; cases h; rfl
    | anchor => rw [pattern] at h; cases h; rfl
    | any c => rw [pattern] at h; cases h; exact wc _ _ _ rfl
    | char cps c =>
      rw [pattern] at h; cases h
      rw [AllCls] at hm
      exact wc _ _ _ (by simpa [Re.blank] using hm)
    | ahead ms =>
      rw [pattern] at h
      cases hms : ms.mapM (pattern db lk fuel false) with
      | error e => simp [hms] at h
      | ok rs => simp only [hms] at h; cases h; rfl
    | behind ms =>
      rw [pattern] at h
      cases hms : ms.mapM (pattern db lk fuel true) with
      | error e => simp [hms] at h
      | ok rs => simp only [hms] at h; cases h; rfl
    | choice ms c =>
      rw [pattern] at h
      cases hms : ms.mapM (pattern db lk fuel beh) with
      | error e => simp [hms] at h
      | ok rs => simp only [hms] at h; cases h; exact wc _ _ _ rfl
    | cls k c =>
      rw [pattern] at h
      cases hk : classPattern db lk fuel k with
      | error e => simp [hk] at h
      | ok r =>
        simp only [hk] at h; cases h
        rw [classPattern] at hk
        cases hs : Cls.getSet db lk.classes fuel k with
        | error e => simp [hs] at hk
        | ok s =>
          simp only [hs, Except.ok.injEq] at hk
          rw [AllCls] at hm
          obtain ⟨x, hx1, hx2⟩ := hm
          rw [isEmpty_false hx1 ((hw.cls fuel k s hs x).mpr hx2)] at hk
          simp only [Bool.false_eq_true, if_false] at hk
          subst hk
          exact wc _ _ _ rfl
    | rule id nm br ms c =>
      rw [AllCls] at hm
      cases br with
      | some n =>
        rw [pattern.eq_def] at h
        simp only at h
        cases hd : dget lk.rules n with
        | none => simp [hd] at h
        | some m =>
          simp only [hd] at h
          cases hp : pattern db lk fuel beh m with
          | error e => simp [hp] at h
          | ok r =>
            simp only [hp] at h; cases h
            exact wc _ _ _ (ih beh m r (hlk n m hd) hp)
      | none =>
        rw [pattern.eq_def] at h
        simp only at h
        cases hms : ms.mapM (pattern db lk fuel beh) with
        | error e => simp [hms] at h
        | ok rs =>
          simp only [hms] at h; cases h
          refine wc _ _ _ ?_
          cases C42.mapM_ok.mp hms with
          | nil => exact absurd rfl (hm.1 rfl)
          | @cons m r ms rs h1 h2 =>
            have := ih beh m r (allClsL_iff.mp hm.2 m (by simp)) h1
            simp [Re.seqs, Re.blank, this]

theorem hasAnchor_withCount (beh : Bool) (c : Count) (r : Re) : (withCount beh c r).hasAnchor = r.hasAnchor := by
  unfold withCount
  cases c.bounds beh with
  | none => rfl
  | some p => rfl

theorem hasAnchor_seqs (rs : List Re) : (Re.seqs rs).hasAnchor = rs.any Re.hasAnchor := by
  induction rs with
  | nil => rfl
  | cons r rs ih => simp [Re.seqs, Re.hasAnchor, ih]

theorem hasAnchor_alts : ∀ rs : List Re, (Re.alts rs).hasAnchor = rs.any Re.hasAnchor
  | [] => rfl
  | [r] => by simp [Re.alts, Re.hasAnchor]
  | r :: s :: l => by simp [Re.alts, Re.hasAnchor, hasAnchor_alts (s :: l)]

/-- Without an anchor there is none in the pattern. -/
theorem pattern_no_anchor {db : String → Except Err CpSet} {lk : Lookups} :
    ∀ (fuel : Nat) (beh : Bool) (m : Matcher) (p : Re), AnchorFree lk m →
      pattern db lk fuel beh m = .ok p → p.hasAnchor = false := by
  intro fuel
  induction fuel with
  | zero => intro beh m p _ h; simp [pattern] at h
  | succ fuel ih =>
    intro beh m p hm h
    have lists : ∀ (beh : Bool) (ms : List Matcher) (rs : List Re), (∀ m ∈ ms, AnchorFree lk m) → ms.mapM (pattern db lk fuel beh) = .ok rs →
        rs.any Re.hasAnchor = false := by
      intro beh ms rs hms hrs
      have hf := C42.mapM_ok.mp hrs
      clear hrs
      induction hf with
      | nil => rfl
      | @cons m r ms rs h1 h2 ih2 =>
        rw [List.any_cons, ih beh m r (hms m (by simp)) h1, ih2 (fun m hm => hms m (by simp [hm]))]
        rfl
    cases hm with
    | start => rw [pattern] at h; cases h; rfl
    | fin => rw [pattern] at h; cases h; rfl
    | any c => rw [pattern] at h; cases h; rw [hasAnchor_withCount]; rfl
    | char cps c => rw [pattern] at h; cases h; rw [hasAnchor_withCount]; rfl
    | ahead ms hms =>
      rw [pattern] at h
      cases hr : ms.mapM (pattern db lk fuel false) with
      | error e => simp [hr] at h
      | ok rs =>
        simp only [hr] at h; cases h
        rw [Re.hasAnchor, hasAnchor_seqs]; exact lists _ _ _ hms hr
    | behind ms hms =>
      rw [pattern] at h
      cases hr : ms.mapM (pattern db lk fuel true) with
      | error e => simp [hr] at h
      | ok rs =>
        simp only [hr] at h; cases h
        rw [Re.hasAnchor, hasAnchor_seqs]; exact lists _ _ _ hms hr
    | choice ms c hms =>
      rw [pattern] at h
      cases hr : ms.mapM (pattern db lk fuel beh) with
      | error e => simp [hr] at h
      | ok rs =>
        simp only [hr] at h; cases h
        rw [hasAnchor_withCount, Re.hasAnchor, hasAnchor_alts]; exact lists _ _ _ hms hr
    | cls k c =>
      rw [pattern] at h
      cases hk : classPattern db lk fuel k with
      | error e => simp [hk] at h
      | ok r =>
        simp only [hk] at h; cases h
        rw [classPattern] at hk
        cases hs : Cls.getSet db lk.classes fuel k with
        | error e => simp [hs] at hk
        | ok s =>
          simp only [hs, Except.ok.injEq] at hk
          rw [hasAnchor_withCount, ← hk]
          split <;> rfl
    | ref id nm n ms c m hd hm =>
      rw [pattern.eq_def] at h
      simp only [hd] at h
      cases hp : pattern db lk fuel beh m with
      | error e => simp [hp] at h
      | ok r =>
        simp only [hp] at h; cases h
        rw [hasAnchor_withCount]
        exact ih beh m r hm hp
    | rule id nm ms c hms =>
      rw [pattern.eq_def] at h
      simp only at h
      cases hr : ms.mapM (pattern db lk fuel beh) with
      | error e => simp [hr] at h
      | ok rs =>
        simp only [hr] at h; cases h
        rw [hasAnchor_withCount, hasAnchor_seqs]; exact lists _ _ _ hms hr

theorem subst_no_anchor (a : Seq) (r : Re) (h : r.hasAnchor = false) : r.subst a = r := by
  induction r with
  | anchor => simp [Re.hasAnchor] at h
  | alt r s ih1 ih2 | seq r s ih1 ih2 =>
    simp only [Re.hasAnchor, Bool.or_eq_false_iff] at h
    simp [Re.subst, ih1 h.1, ih2 h.2]
  | ahead r ih | behind r ih | group r ih | rep r _ _ ih =>
    simp only [Re.hasAnchor] at h
    simp [Re.subst, ih h]
  | _ => rfl

/-- The search. -/
theorem search_isSome (label : Seq) (r : Re) (index : Nat) :
    (search label r index).isSome ↔ ∃ i, index ≤ i ∧ i ≤ label.length ∧ ∃ j, r.Match label i j := by
  unfold search
  split
  · rename_i h; simp [h]
  · rename_i h; simp [h]

open Classical in
theorem search_at (label : Seq) (r : Re) (index : Nat) (hi : index ≤ label.length) :
    (∃ i, search label r index = some i ∧ i ≤ index) ↔ ∃ j, r.Match label index j := by
  unfold search
  split
  · rename_i h
    constructor
    · rintro ⟨i, hi, hle⟩
      cases hi
      have := Nat.find_spec h
      have heq : Nat.find h = index := by omega
      rw [heq] at this
      exact this.2.2
    · intro hj
      exact ⟨_, rfl, Nat.find_min' h ⟨le_refl _, hi, hj⟩⟩
  · rename_i h
    constructor
    · rintro ⟨i, hi, -⟩; cases hi
    · intro hj; exact absurd ⟨index, le_refl _, hi, hj⟩ h

/-! ## Main results -/

/-- A rule without anchors matches a label iff it holds somewhere in it; the code point for which it is
evaluated, if any, plays no role. -/
theorem rule_exact {db : String → Except Err CpSet} {lk : Lookups} {w : World}
    (hw : Agrees db lk w) (hlen : w.label.length ≤ labelMax) (hnl : ∀ c ∈ w.label, Re.newline c = false)
    (hlk : ∀ n m, dget lk.rules n = some m → AllCls (Inhabited w) m)
    {fuel : Nat} {m : Matcher} (hm : AllCls (Inhabited w) m) (hfree : AnchorFree lk m)
    {anc : Option Seq} {index : Nat} (hidx : anc = none → index = 0) {b : Bool}
    (h : ruleMatches db lk fuel m w.label anc index = .ok b) :
    b = true ↔ ∃ i j, i ≤ w.label.length ∧ Holds w m i j := by
  unfold ruleMatches at h
  cases hp : pattern db lk fuel false m with
  | error e => simp [hp] at h
  | ok p =>
    simp only [hp] at h
    have h1 := pattern_not_blank hw hlk fuel false m p hm hp
    have h2 := pattern_no_anchor fuel false m p hfree hp
    unfold matchesPattern at h
    simp only [h1, h2, Bool.false_eq_true, if_false, not_false_eq_true, and_true] at h
    have hi : (if anc.isSome = true then 0 else index) = 0 := by
      cases anc with
      | none => simpa using hidx rfl
      | some a => rfl
    rw [hi] at h
    split at h
    · cases h
    · rename_i hc
      have hc : p.compiles = true := by simpa using hc
      have hex := pattern_exact (a := []) hw hlen hnl hlk fuel false m p hm (.inr hfree) hp hc
      rw [subst_no_anchor _ _ h2] at hex
      have hs := search_isSome w.label p 0
      simp only [hex, Nat.zero_le, true_and] at hs
      cases hsr : search w.label p 0 with
      | none =>
        simp only [hsr, Except.ok.injEq] at h
        rw [hsr] at hs
        simp only [Option.isSome_none, Bool.false_eq_true, false_iff] at hs
        subst h
        simp only [Bool.false_eq_true, false_iff]
        rintro ⟨i, j, h1, h2⟩
        exact hs ⟨i, h1, j, h2⟩
      | some i =>
        simp [hsr] at h
        rw [hsr] at hs
        simp only [Option.isSome_some, true_iff] at hs
        obtain ⟨i, h1, j, h2⟩ := hs
        exact ⟨fun _ => ⟨i, j, h1, h2⟩, fun _ => h⟩

/-! ## The meaning of rules exists and is unique -/

/-- The rules a matcher refers to. -/
inductive RefersTo (n : String) : Matcher → Prop
  | ahead (ms : List Matcher) (m : Matcher) (h : m ∈ ms) (hm : RefersTo n m) : RefersTo n (.ahead ms)
  | behind (ms : List Matcher) (m : Matcher) (h : m ∈ ms) (hm : RefersTo n m) : RefersTo n (.behind ms)
  | choice (ms : List Matcher) (c : Count) (m : Matcher) (h : m ∈ ms) (hm : RefersTo n m) :
      RefersTo n (.choice ms c)
  | ref (id : Nat) (nm : Option String) (ms : List Matcher) (c : Count) : RefersTo n (.rule id nm (some n) ms c)
  | rule (id : Nat) (nm : Option String) (ms : List Matcher) (c : Count) (m : Matcher) (h : m ∈ ms)
      (hm : RefersTo n m) : RefersTo n (.rule id nm none ms c)

theorem counted_congr {R S : Nat → Nat → Prop} (h : ∀ i j, R i j ↔ S i j) (c : Count) (i j : Nat) :
    Counted R c i j ↔ Counted S c i j := by
  have : R = S := by funext i j; exact propext (h i j)
  rw [this]

theorem holdsSeq_congr {w w' : World} {ms : List Matcher}
    (h : ∀ m ∈ ms, ∀ i j, Holds w m i j ↔ Holds w' m i j) (i j : Nat) : HoldsSeq w ms i j ↔ HoldsSeq w' ms i j := by
  induction ms generalizing i with
  | nil => rfl
  | cons m ms ih =>
    have ih' := fun i => ih (fun m hm => h m (by simp [hm])) i
    simp only [HoldsSeq, h m (by simp), ih']

theorem holdsSome_congr {w w' : World} {ms : List Matcher}
    (h : ∀ m ∈ ms, ∀ i j, Holds w m i j ↔ Holds w' m i j) (i j : Nat) :
    HoldsSome w ms i j ↔ HoldsSome w' ms i j := by
  induction ms with
  | nil => rfl
  | cons m ms ih =>
    have ih' := ih (fun m hm => h m (by simp [hm]))
    simp only [HoldsSome, h m (by simp), ih']

/-- Only the rules referred to matter. -/
theorem holds_congr {w w' : World} (hl : w.label = w'.label) (hc : w.cls = w'.cls) (ha : w.anchor = w'.anchor) :
    ∀ m, (∀ n, RefersTo n m → ∀ i j, w.rule n i j ↔ w'.rule n i j) → ∀ i j, Holds w m i j ↔ Holds w' m i j := by
  refine matcher_ind ?_ ?_ ?_ ?_ ?_ ?_ ?_ ?_ ?_ ?_
  · intros; simp [Holds]
  · intros; simp [Holds, hl]
  · intros; simp [Holds, ha]
  · intros; simp [Holds, hl]
  · intros; simp [Holds, hl]
  · intro ms ih h i j
    have := holdsSeq_congr (w := w) (w' := w') (fun m hm => ih m hm (fun n hn => h n (.ahead ms m hm hn)))
    simp [Holds, this]
  · intro ms ih h i j
    have := holdsSeq_congr (w := w) (w' := w') (fun m hm => ih m hm (fun n hn => h n (.behind ms m hm hn)))
    simp [Holds, this]
  · intro ms c ih h i j
    rw [Holds, Holds]
    exact counted_congr (holdsSome_congr (fun m hm => ih m hm (fun n hn => h n (.choice ms c m hm hn)))) c i j
  · intros; simp [Holds, hl, hc]
  · intro id nm br ms c ih h i j
    cases br with
    | some n =>
      rw [Holds, Holds]
      exact counted_congr (h n (.ref id nm ms c)) c i j
    | none =>
      rw [Holds, Holds]
      exact counted_congr (holdsSeq_congr (fun m hm => ih m hm (fun n hn => h n (.rule id nm ms c m hm hn)))) c i j

/-- Rules refer to rules of lower rank only. -/
def RuleRanked (rules : List (String × Matcher)) (rank : String → Nat) : Prop :=
  ∀ n m, dget rules n = some m → ∀ n', RefersTo n' m → n' ∈ rules.map Prod.fst ∧ rank n' < rank n

/-- The meaning of names, up to a rank. -/
def upTo (rules : List (String × Matcher)) (w : World) : Nat → String → Nat → Nat → Prop
  | 0, _, _, _ => False
  | d + 1, n, i, j => ∃ m, dget rules n = some m ∧ Holds { w with rule := upTo rules w d } m i j

theorem upTo_stable {rules : List (String × Matcher)} {rank : String → Nat} (hr : RuleRanked rules rank)
    (w : World) : ∀ d n, rank n < d → ∀ i j, upTo rules w d n i j ↔ upTo rules w (rank n + 1) n i j := by
  intro d
  induction d using Nat.strong_induction_on with
  | _ d ih =>
    intro n hn i j
    cases d with
    | zero => omega
    | succ d =>
      simp only [upTo]
      constructor
      · rintro ⟨m, hm, h⟩
        refine ⟨m, hm, (holds_congr (w := { w with rule := upTo rules w d })
          (w' := { w with rule := upTo rules w (rank n) }) rfl rfl rfl m ?_ i j).mp h⟩
        intro n' hn' i j
        have hlt := (hr n m hm n' hn').2
        simp only
        rw [ih d (by omega) n' (by omega)]
        by_cases hd : rank n < d + 1
        · exact (ih (rank n) (by omega) n' hlt i j).symm
        · omega
      · rintro ⟨m, hm, h⟩
        refine ⟨m, hm, (holds_congr (w := { w with rule := upTo rules w d })
          (w' := { w with rule := upTo rules w (rank n) }) rfl rfl rfl m ?_ i j).mpr h⟩
        intro n' hn' i j
        have hlt := (hr n m hm n' hn').2
        simp only
        rw [ih d (by omega) n' (by omega)]
        exact (ih (rank n) (by omega) n' hlt i j).symm

/-- If no rule refers to itself, directly or not, then rules have a meaning. -/
theorem meaning_exists {rules : List (String × Matcher)} {rank : String → Nat} (hr : RuleRanked rules rank)
    (w : World) : ∃ R : String → Nat → Nat → Prop,
      ∀ n m, dget rules n = some m → ∀ i j, R n i j ↔ Holds { w with rule := R } m i j := by
  refine ⟨fun n => upTo rules w (rank n + 1) n, ?_⟩
  intro n m hm i j
  have e : upTo rules w (rank n + 1) n i j ↔ Holds { w with rule := upTo rules w (rank n) } m i j := by
    simp only [upTo, hm, Option.some.injEq, exists_eq_left']
  refine e.trans (holds_congr (w := { w with rule := upTo rules w (rank n) })
    (w' := { w with rule := fun n => upTo rules w (rank n + 1) n }) rfl rfl rfl m ?_ i j)
  intro n' hn' i j
  exact upTo_stable hr w (rank n) n' (hr n m hm n' hn').2 i j

/-- And only one. -/
theorem meaning_unique {rules : List (String × Matcher)} {rank : String → Nat} (hr : RuleRanked rules rank)
    (w : World) (R R' : String → Nat → Nat → Prop)
    (h : ∀ n m, dget rules n = some m → ∀ i j, R n i j ↔ Holds { w with rule := R } m i j)
    (h' : ∀ n m, dget rules n = some m → ∀ i j, R' n i j ↔ Holds { w with rule := R' } m i j) :
    ∀ d n, rank n < d → n ∈ rules.map Prod.fst → ∀ i j, R n i j ↔ R' n i j := by
  intro d
  induction d with
  | zero => intro n hn; omega
  | succ d ih =>
    intro n hn hmem i j
    obtain ⟨m, hm⟩ := Option.isSome_iff_exists.mp (dget_isSome.mpr hmem)
    rw [h n m hm, h' n m hm]
    refine holds_congr (w := { w with rule := R }) (w' := { w with rule := R' }) rfl rfl rfl m ?_ i j
    intro n' hn' i j
    obtain ⟨h1, h2⟩ := hr n m hm n' hn'
    exact ih n' (by omega) h1 i j

end Lgr.C63

namespace Lgr.C64
open Lgr Matcher C63

/-- A look-around matcher without an anchor in it. -/
def Around (lk : Lookups) (m : Matcher) : Prop :=
  AnchorFree lk m ∧ ((∃ ms, m = .ahead ms) ∨ ∃ ms, m = .behind ms)

theorem holds_around {lk : Lookups} {w : World} {m : Matcher} (h : Around lk m) {i j : Nat} (hh : Holds w m i j) :
    i = j := by
  rcases h.2 with ⟨ms, rfl⟩ | ⟨ms, rfl⟩ <;> (rw [Holds] at hh; exact hh.2.symm)

theorem seqs_append (label : Seq) (rs ss : List Re) (i j : Nat) :
    (Re.seqs (rs ++ ss)).Match label i j ↔ ∃ k, (Re.seqs rs).Match label i k ∧ (Re.seqs ss).Match label k j := by
  induction rs generalizing i with
  | nil => simp [Re.seqs, Re.Match]
  | cons r rs ih =>
    simp only [List.cons_append, Re.seqs, Re.Match, ih]
    constructor
    · rintro ⟨k, h1, l, h2, h3⟩; exact ⟨l, ⟨k, h1, h2⟩, h3⟩
    · rintro ⟨l, ⟨k, h1, h2⟩, h3⟩; exact ⟨k, h1, l, h2, h3⟩

theorem arounds {lk : Lookups} {w : World} {ms : List Matcher} (h : ∀ m ∈ ms, Around lk m) (i j : Nat) :
    HoldsSeq w ms i j ↔ i = j ∧ ∀ m ∈ ms, Holds w m i i := by
  induction ms generalizing i with
  | nil => simp [HoldsSeq]
  | cons m ms ih =>
    have ih' := fun i => ih (fun m hm => h m (by simp [hm])) i
    rw [HoldsSeq]
    constructor
    · rintro ⟨k, h1, h2⟩
      have := holds_around (h m (by simp)) h1
      subst this
      obtain ⟨rfl, h3⟩ := (ih' i).mp h2
      refine ⟨rfl, ?_⟩
      intro m' hm'
      rcases List.mem_cons.mp hm' with rfl | hm'
      · exact h1
      · exact h3 m' hm'
    · rintro ⟨rfl, h1⟩
      exact ⟨i, h1 m (by simp), (ih' i).mpr ⟨rfl, fun m' hm' => h1 m' (by simp [hm'])⟩⟩

theorem forall2_split {α β : Type} {R : α → β → Prop} {l1 l2 : List α} {x : α} {r : List β}
    (h : List.Forall₂ R (l1 ++ x :: l2) r) :
    ∃ r1 y r2, r = r1 ++ y :: r2 ∧ List.Forall₂ R l1 r1 ∧ R x y ∧ List.Forall₂ R l2 r2 := by
  induction l1 generalizing r with
  | nil =>
    cases h with
    | @cons _ y _ r2 h1 h2 => exact ⟨[], y, r2, rfl, .nil, h1, h2⟩
  | cons a l1 ih =>
    cases h with
    | @cons _ b _ r' h1 h2 =>
      obtain ⟨r1, y, r2, rfl, h3, h4, h5⟩ := ih h2
      exact ⟨b :: r1, y, r2, rfl, .cons h1 h3, h4, h5⟩

/-- A context rule of the form RFC 7940 6.4 asks for: an anchor, with look-arounds before and after it which
have no anchors in them. It matches for the code points `a` at a position of the label iff they are there,
what precedes the anchor holds at their start, and what follows it holds at their end. -/
theorem context_rule_exact {db : String → Except Err CpSet} {lk : Lookups} {w : World}
    (hw : Agrees db lk w) (hlen : w.label.length ≤ labelMax) (hnl : ∀ c ∈ w.label, Re.newline c = false)
    (hlk : ∀ n m, dget lk.rules n = some m → AllCls (Inhabited w) m)
    {fuel id : Nat} {nm : Option String} {pre post : List Matcher} (hpre : ∀ m ∈ pre, Around lk m)
    (hpost : ∀ m ∈ post, Around lk m)
    (hm : AllCls (Inhabited w) (.rule id nm none (pre ++ .anchor :: post) .none))
    {a : Seq} {index : Nat} (hidx : index ≤ w.label.length) {b : Bool}
    (h : ruleMatches db lk fuel (.rule id nm none (pre ++ .anchor :: post) .none) w.label (some a) index = .ok b) :
    b = true ↔ (∀ m ∈ pre, Holds w m index index) ∧ Occurs w.label a index (index + a.length) ∧
      (∀ m ∈ post, Holds w m (index + a.length) (index + a.length)) := by
  unfold ruleMatches at h
  cases hp : pattern db lk fuel false (.rule id nm none (pre ++ .anchor :: post) .none) with
  | error e => simp [hp] at h
  | ok p =>
    simp only [hp] at h
    have h1 := pattern_not_blank hw hlk fuel false _ p hm hp
    cases fuel with
    | zero => simp [pattern] at hp
    | succ fuel =>
      rw [pattern.eq_def] at hp
      simp only at hp
      cases hms : (pre ++ .anchor :: post).mapM (pattern db lk fuel false) with
      | error e => simp [hms] at hp
      | ok rs =>
        simp only [hms, withCount, Count.bounds, Except.ok.injEq] at hp
        subst hp
        obtain ⟨r1, y, r2, rfl, hf1, hy, hf2⟩ := forall2_split (C42.mapM_ok.mp hms)
        have hy' : y = .anchor := by
          cases fuel with
          | zero => simp [pattern] at hy
          | succ f => rw [pattern] at hy; cases hy; rfl
        subst hy'
        have h2 : (Re.seqs (r1 ++ .anchor :: r2)).hasAnchor = true := by
          rw [hasAnchor_seqs]; simp [Re.hasAnchor]
        unfold matchesPattern at h
        simp only [h1, h2, Bool.false_eq_true, if_false, not_true_eq_false, and_false, if_true, compiles_subst,
          Option.isSome_some, Bool.true_and] at h
        split at h
        · cases h
        · rename_i hc
          have hc : (Re.seqs (r1 ++ .anchor :: r2)).compiles = true := by simpa using hc
          have hcs := compiles_seqs hc
          rw [AllCls, allClsL_iff] at hm
          have part : ∀ ms rs, (∀ m ∈ ms, Around lk m) → (∀ m ∈ ms, AllCls (Inhabited w) m) →
              (∀ r ∈ rs, r.compiles = true) →
              List.Forall₂ (fun m r => pattern db lk fuel false m = .ok r) ms rs →
              ∀ i j, (Re.seqs (rs.map (Re.subst a))).Match w.label i j ↔ i = j ∧ ∀ m ∈ ms, Holds w m i i := by
            intro ms rs hA hC hR hf i j
            rw [match_seqs (w := w) (ms := ms), arounds hA]
            refine forall2_map hf ?_
            intro m hm r hr hmr
            exact pattern_exact hw hlen hnl hlk fuel false m r (hC m hm) (.inr (hA m hm).1) hmr (hR r hr)
          have p1 := part pre r1 hpre (fun m hm' => hm.2 m (by simp [hm'])) (fun r hr => hcs r (by simp [hr])) hf1
          have p2 := part post r2 hpost (fun m hm' => hm.2 m (by simp [hm'])) (fun r hr => hcs r (by simp [hr])) hf2
          have hmatch : (∃ j, ((Re.seqs (r1 ++ .anchor :: r2)).subst a).Match w.label index j) ↔
              (∀ m ∈ pre, Holds w m index index) ∧ Occurs w.label a index (index + a.length) ∧
              (∀ m ∈ post, Holds w m (index + a.length) (index + a.length)) := by
            rw [subst_seqs, List.map_append, List.map_cons]
            constructor
            · rintro ⟨j, hj⟩
              obtain ⟨k, hk1, hk2⟩ := (seqs_append w.label _ _ index j).mp hj
              obtain ⟨rfl, hk3⟩ := (p1 _ _).mp hk1
              obtain ⟨l, hl1, hl2⟩ := hk2
              simp only [Re.subst, Re.Match] at hl1
              obtain ⟨hl3, rfl⟩ := hl1
              obtain ⟨rfl, hk4⟩ := (p2 _ _).mp hl2
              exact ⟨hk3, ⟨hl3, rfl⟩, hk4⟩
            · rintro ⟨hk3, ⟨hl3, -⟩, hk4⟩
              refine ⟨index + a.length, (seqs_append w.label _ _ index _).mpr ⟨index, (p1 _ _).mpr ⟨rfl, hk3⟩, ?_⟩⟩
              refine ⟨index + a.length, ?_, (p2 _ _).mpr ⟨rfl, hk4⟩⟩
              simp only [Re.subst, Re.Match]
              exact ⟨hl3, trivial⟩
          rw [← hmatch, ← search_at w.label _ index hidx]
          cases hsr : search w.label ((Re.seqs (r1 ++ .anchor :: r2)).subst a) index with
          | none =>
            simp only [hsr, Except.ok.injEq] at h
            subst h
            simp
          | some i =>
            simp only [hsr, Except.ok.injEq] at h
            subst h
            simp

end Lgr.C64

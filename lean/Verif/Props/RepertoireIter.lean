import Verif.Props.RepertoireRange
import Mathlib.Data.Multiset.UnionInter

/-!
# C03: iteration lists the repertoire once, in ascending order

The specification only talks about what `get_char` answers and the listed characters.
-/

namespace Lgr.Props.C03
open Lgr Repertoire C01

/-- First code point of an entry. -/
def firstCp (c : CharObj) : Nat := c.cp.headD 0

/-- Order of iteration: first code point, then length. -/
def Before (a b : CharObj) : Prop :=
  firstCp a < firstCp b ∨ (firstCp a = firstCp b ∧ a.cp.length ≤ b.cp.length)

/-- Ranges are intact: declared ranges are proper, each declared once, all their code points
are present as members of that range, and every member of a range belongs to a declared one. -/
structure Intact (s : Abs) : Prop where
  proper : ∀ p ∈ s.ranges, p.1 < p.2
  nodup : s.ranges.Nodup
  present : ∀ p ∈ s.ranges, ∀ x, p.1 ≤ x → x ≤ p.2 → ∃ e, s.map [x] = some e ∧ e.range = some p
  declared : ∀ k e p, s.map k = some e → e.range = some p →
    p ∈ s.ranges ∧ ∃ x, k = [x] ∧ p.1 ≤ x ∧ x ≤ p.2

/-! ## Helper lemmas -/

/-- Everything in order, nothing skipped. -/
def full (r : Repertoire) (ks : List Nat) : List CharObj :=
  ks.flatMap (fun i => sortAsc CharObj.len (r.bucket i))

theorem iterBucket_sublist (last : Option Nat) (l : List CharObj) :
    (iterBucket last l).2.Sublist l := by
  induction l generalizing last with
  | nil => simp [iterBucket]
  | cons c l ih =>
    simp only [iterBucket]
    split
    · split
      · exact (ih _).cons _
      · exact (ih _).cons_cons _
    · exact (ih _).cons_cons _

theorem iterBucket_nonrange (last : Option Nat) (l : List CharObj) (c : CharObj)
    (hc : c.range = none) : c ∈ (iterBucket last l).2 ↔ c ∈ l := by
  induction l generalizing last with
  | nil => simp [iterBucket]
  | cons d l ih =>
    simp only [iterBucket]
    split
    · rename_i hd
      have hne : c ≠ d := by rintro rfl; rw [hc] at hd; simp at hd
      split
      · rw [ih, List.mem_cons]; simp [hne]
      · simp only [List.mem_cons, hne, false_or, ih]
    · simp only [List.mem_cons, ih]

theorem iterKeys_sublist (r : Repertoire) (last : Option Nat) (ks : List Nat) :
    (r.iterKeys last ks).Sublist (full r ks) := by
  induction ks generalizing last with
  | nil => simp [iterKeys, full]
  | cons i ks ih =>
    simp only [iterKeys, full, List.flatMap_cons]
    exact (iterBucket_sublist _ _).append (ih _)

theorem iterKeys_nonrange (r : Repertoire) (last : Option Nat) (ks : List Nat) (c : CharObj)
    (hc : c.range = none) : c ∈ r.iterKeys last ks ↔ c ∈ full r ks := by
  induction ks generalizing last with
  | nil => simp [iterKeys, full]
  | cons i ks ih =>
    simp only [iterKeys, full, List.flatMap_cons, List.mem_append, iterBucket_nonrange _ _ c hc]
    rw [ih]; simp [full]

theorem bucket_first {r : Repertoire} (h : WF r) {i : Nat} {c : CharObj} (hc : c ∈ r.bucket i) :
    ∃ t, c.cp = i :: t := by
  obtain ⟨p, hp, rfl, hm⟩ := bucket_mem hc
  exact h.filed p hp c hm

theorem full_sorted {r : Repertoire} (h : WF r) {ks : List Nat} (hs : ks.Pairwise (· < ·)) :
    (full r ks).Pairwise Before := by
  unfold full
  rw [List.flatMap_def, List.pairwise_flatten]
  constructor
  · intro l hl
    obtain ⟨i, hi, rfl⟩ := List.mem_map.1 hl
    refine (sortAsc_sorted CharObj.len (r.bucket i)).imp_of_mem ?_
    intro a b ha hb hab
    obtain ⟨t, ht⟩ := bucket_first h ((mem_sortAsc _).1 ha)
    obtain ⟨t', ht'⟩ := bucket_first h ((mem_sortAsc _).1 hb)
    right
    exact ⟨by simp [firstCp, ht, ht'], hab⟩
  · rw [List.pairwise_map]
    refine hs.imp ?_
    intro i j hij a ha b hb
    obtain ⟨t, ht⟩ := bucket_first h ((mem_sortAsc _).1 ha)
    obtain ⟨t', ht'⟩ := bucket_first h ((mem_sortAsc _).1 hb)
    left
    simpa [firstCp, ht, ht'] using hij

theorem keys_sorted {r : Repertoire} (h : WF r) :
    (sortAsc id (r.dict.map Prod.fst)).Pairwise (· < ·) := by
  have h1 := sortAsc_sorted id (r.dict.map Prod.fst)
  have h2 : (sortAsc id (r.dict.map Prod.fst)).Nodup := (sortAsc_perm _ _).nodup_iff.2 h.keys
  refine (h1.and h2).imp ?_
  rintro a b ⟨h3, h4⟩
  exact lt_of_le_of_ne h3 h4

theorem mem_full {r : Repertoire} (h : WF r) (c : CharObj) :
    c ∈ full r (sortAsc id (r.dict.map Prod.fst)) ↔ r.getChar c.cp = .ok c := by
  rw [getChar_ok, lookup_eq_some h]
  unfold full
  simp only [List.mem_flatMap, mem_sortAsc]
  constructor
  · rintro ⟨i, _, hc⟩
    obtain ⟨t, ht⟩ := bucket_first h hc
    exact ⟨i, t, ht, hc, trivial⟩
  · rintro ⟨i, t, _, hc, _⟩
    obtain ⟨p, hp, hpi, _⟩ := bucket_mem hc
    exact ⟨i, List.mem_map.2 ⟨p, hp, hpi⟩, hc⟩

theorem full_nodup {r : Repertoire} (h : WF r) :
    ((full r (sortAsc id (r.dict.map Prod.fst))).map CharObj.cp).Nodup := by
  have hp : (full r (sortAsc id (r.dict.map Prod.fst))).Perm r.allChars := by
    have h1 : (full r (sortAsc id (r.dict.map Prod.fst))).Perm
        ((r.dict.map Prod.fst).flatMap r.bucket) := by
      unfold full
      refine List.Perm.flatMap (sortAsc_perm id _) ?_
      intro i _; exact sortAsc_perm _ _
    refine h1.trans ?_
    rw [List.flatMap_map]
    unfold allChars
    have : ∀ p ∈ r.dict, r.bucket p.1 = p.2 := by
      intro p hp; simp [bucket, dget_of_mem h.keys hp]
    rw [List.flatMap_congr this]
  exact (hp.map _).nodup_iff.2 (allChars_nodup h)

/-! ### range entries -/

/-- A bucket without range characters is listed entirely and keeps `last_cp`. -/
theorem iterBucket_noRange (last : Option Nat) (l : List CharObj) (h : ∀ c ∈ l, c.range = none) :
    iterBucket last l = (last, l) := by
  induction l with
  | nil => rfl
  | cons c l ih =>
    simp only [iterBucket, h c (by simp)]
    rw [ih (fun d hd => h d (by simp [hd]))]

theorem iterBucket_append (last : Option Nat) (l m : List CharObj) :
    iterBucket last (l ++ m) =
      ((iterBucket (iterBucket last l).1 m).1,
        (iterBucket last l).2 ++ (iterBucket (iterBucket last l).1 m).2) := by
  induction l generalizing last with
  | nil => simp [iterBucket]
  | cons c l ih =>
    simp only [List.cons_append, iterBucket]
    split
    · split
      · rw [ih]
      · rw [ih]; simp
    · rw [ih]; simp

/-- Effect on a bucket with exactly one range character `d`. -/
theorem iterBucket_one (last : Option Nat) (A B : List CharObj) (d : CharObj) (f l : Nat)
    (hd : d.range = some (f, l)) (hA : ∀ c ∈ A, c.range = none) (hB : ∀ c ∈ B, c.range = none) :
    iterBucket last (A ++ d :: B) =
      match last with
      | some m => (some m, A ++ B)
      | none => (some l, A ++ d :: B) := by
  rw [iterBucket_append, iterBucket_noRange _ A hA]
  simp only [iterBucket, hd]
  cases last <;> simp [iterBucket_noRange _ B hB]

/-- `last_cp` after the reset test at key `i`. -/
def reset (last : Option Nat) (i : Nat) : Option Nat :=
  match last with
  | some m => if m < i then none else some m
  | none => none

/-- The bucket of `i` has at most one range character, and splits around it. -/
theorem bucket_split {r : Repertoire} (h : WF r) (i : Nat) :
    (∀ c ∈ sortAsc CharObj.len (r.bucket i), c.range = none) ∨
    ∃ A d B f l, sortAsc CharObj.len (r.bucket i) = A ++ d :: B ∧ d.range = some (f, l) ∧
      d.cp = [i] ∧ f ≤ i ∧ i ≤ l ∧ (∀ c ∈ A, c.range = none) ∧ (∀ c ∈ B, c.range = none) := by
  by_cases hall : ∀ c ∈ sortAsc CharObj.len (r.bucket i), c.range = none
  · exact Or.inl hall
  right
  push Not at hall
  obtain ⟨d, hd, hr⟩ := hall
  obtain ⟨p, hp⟩ := Option.ne_none_iff_exists'.1 hr
  obtain ⟨f, l⟩ := p
  have hb : ∀ c ∈ sortAsc CharObj.len (r.bucket i), ∀ p, c.range = some p →
      c.cp = [i] ∧ p.1 ≤ i ∧ i ≤ p.2 := by
    intro c hc p hp
    have hc' := (mem_sortAsc _).1 hc
    obtain ⟨t, ht⟩ := bucket_first h hc'
    obtain ⟨q, hq, _, hm⟩ := bucket_mem hc'
    obtain ⟨x, hx, h1, h2⟩ := (h.chars q hq c hm).rangeCp p.1 p.2 hp
    rw [ht] at hx; injection hx with hx1 hx2
    subst hx1; rw [ht, hx2]; exact ⟨rfl, h1, h2⟩
  obtain ⟨A, B, hAB⟩ := List.append_of_mem hd
  have hn : ((A ++ d :: B).map CharObj.cp).Nodup := by
    rw [← hAB]; exact ((sortAsc_perm _ _).map _).nodup_iff.2 (bucket_uniq h i)
  have hd1 := hb d hd _ hp
  simp only [List.map_append, List.map_cons, List.nodup_append, List.nodup_cons] at hn
  refine ⟨A, d, B, f, l, hAB, hp, hd1.1, hd1.2.1, hd1.2.2, ?_, ?_⟩
  · intro c hc
    by_contra hcr
    obtain ⟨q, hq⟩ := Option.ne_none_iff_exists'.1 hcr
    have := hb c (by rw [hAB]; simp [hc]) q hq
    exact hn.2.2 c.cp (List.mem_map_of_mem hc) d.cp (by simp) (by rw [this.1, hd1.1])
  · intro c hc
    by_contra hcr
    obtain ⟨q, hq⟩ := Option.ne_none_iff_exists'.1 hcr
    have := hb c (by rw [hAB]; simp [hc]) q hq
    apply hn.2.1.1
    rw [hd1.1, ← this.1]; exact List.mem_map_of_mem hc

theorem iterKeys_cons (r : Repertoire) (last : Option Nat) (i : Nat) (ks : List Nat) :
    r.iterKeys last (i :: ks) =
      (iterBucket (reset last i) (sortAsc CharObj.len (r.bucket i))).2 ++
      r.iterKeys (iterBucket (reset last i) (sortAsc CharObj.len (r.bucket i))).1 ks := by
  simp only [iterKeys, reset]
  cases last <;> rfl

/-- While `last_cp = m`, no range entry with first code point at most `m` is listed. -/
theorem iterKeys_skip {r : Repertoire} (h : WF r) (m : Nat) (ks : List Nat)
    (c : CharObj) (f l : Nat) (hc : c.range = some (f, l)) (hlm : l ≤ m)
    (hs : ks.Pairwise (· < ·)) : c ∉ r.iterKeys (some m) ks := by
  induction ks with
  | nil => simp [iterKeys]
  | cons i ks ih =>
    rw [iterKeys_cons]
    rw [List.pairwise_cons] at hs
    -- entries of a larger key than `m` cannot be `c`
    have hbig : ∀ last, ∀ js : List Nat, (∀ j ∈ js, m < j) → c ∉ r.iterKeys last js := by
      intro last js hj hc'
      have := (iterKeys_sublist r last js).subset hc'
      simp only [full, List.mem_flatMap, mem_sortAsc] at this
      obtain ⟨j, hjm, hcj⟩ := this
      obtain ⟨p, hp, hpj, hm⟩ := bucket_mem hcj
      obtain ⟨t, ht⟩ := h.filed p hp c hm
      obtain ⟨x, hx, h1, h2⟩ := (h.chars p hp c hm).rangeCp f l hc
      rw [ht] at hx; injection hx with hx _
      have := hj j hjm; omega
    by_cases hmi : m < i
    · have := hbig (some m) (i :: ks) (by
        intro j hj; rcases List.mem_cons.1 hj with rfl | hj
        · exact hmi
        · have := hs.1 j hj; omega)
      rwa [iterKeys_cons] at this
    · have hres : reset (some m) i = some m := by simp [reset, hmi]
      rw [hres]
      rcases bucket_split h i with hnr | ⟨A, d, B, f', l', hb, hd, _, _, _, hA, hB⟩
      · rw [iterBucket_noRange _ _ hnr]
        simp only [List.mem_append, not_or]
        exact ⟨fun hm => by have := hnr c hm; rw [hc] at this; simp at this, ih hs.2⟩
      · rw [hb, iterBucket_one _ A B d f' l' hd hA hB]
        simp only [List.mem_append, not_or]
        refine ⟨⟨fun hm => ?_, fun hm => ?_⟩, ih hs.2⟩
        · have := hA c hm; rw [hc] at this; simp at this
        · have := hB c hm; rw [hc] at this; simp at this

theorem iterKeys_range_once {r : Repertoire} (h : WF r) (ks : List Nat)
    (hs : ks.Pairwise (· < ·)) (last : Option Nat) (c d : CharObj) (p : Nat × Nat)
    (hc : c ∈ r.iterKeys last ks) (hd : d ∈ r.iterKeys last ks)
    (hcp : c.range = some p) (hdp : d.range = some p) : c = d := by
  induction ks generalizing last with
  | nil => simp [iterKeys] at hc
  | cons i ks ih =>
    rw [List.pairwise_cons] at hs
    rw [iterKeys_cons] at hc hd
    rcases bucket_split h i with hnr | ⟨A, x, B, f', l', hb, hx, _, _, _, hA, hB⟩
    · rw [iterBucket_noRange _ _ hnr] at hc hd
      simp only [List.mem_append] at hc hd
      rcases hc with hc | hc
      · have := hnr c hc; rw [hcp] at this; simp at this
      rcases hd with hd | hd
      · have := hnr d hd; rw [hdp] at this; simp at this
      exact ih hs.2 _ hc hd
    · rw [hb, iterBucket_one _ A B x f' l' hx hA hB] at hc hd
      have hnA : ∀ e, e.range = some p → e ∉ A := fun e he hm => by
        have := hA e hm; rw [he] at this; simp at this
      have hnB : ∀ e, e.range = some p → e ∉ B := fun e he hm => by
        have := hB e hm; rw [he] at this; simp at this
      cases hr : reset last i with
      | some m =>
        simp only [hr, List.mem_append, hnA c hcp, hnB c hcp, hnA d hdp, hnB d hdp, false_or] at hc hd
        exact ih hs.2 _ hc hd
      | none =>
        simp only [hr, List.mem_append, List.mem_cons, hnA c hcp, hnB c hcp, hnA d hdp, hnB d hdp,
          false_or, or_false] at hc hd
        -- if one of them is `x`, its range is skipped later
        have hskip : x.range = some p → ∀ e, e.range = some p → e ∉ r.iterKeys (some l') ks := by
          intro hxp e he
          rw [hx] at hxp; injection hxp with hxp; subst hxp
          exact iterKeys_skip h l' ks e f' l' he (le_refl _) hs.2
        rcases hc with rfl | hc
        · rcases hd with rfl | hd
          · rfl
          · exact absurd hd (hskip hcp d hdp)
        · rcases hd with rfl | hd
          · exact absurd hc (hskip hdp c hcp)
          · exact ih hs.2 _ hc hd

/-- Intactness on the concrete side. -/
theorem intact_lookup {r : Repertoire} (hi : Intact (abs r)) {k : Seq} {c : CharObj} {f l : Nat}
    (hc : r.lookup k = some c) (hr : c.range = some (f, l)) :
    ∀ y, f ≤ y → y ≤ l → ∃ d, r.lookup [y] = some d ∧ d.range = some (f, l) := by
  intro y h1 h2
  have hm : (abs r).map k = some (entry c) := by rw [abs_map, hc]; rfl
  obtain ⟨hp, _⟩ := hi.declared k (entry c) (f, l) hm hr
  obtain ⟨e, he, her⟩ := hi.present (f, l) hp y h1 h2
  rw [abs_map] at he
  cases hl : r.lookup [y] with
  | none => rw [hl] at he; simp at he
  | some d =>
    rw [hl] at he; simp only [Option.map_some, Option.some.injEq] at he
    refine ⟨d, rfl, ?_⟩
    rw [← her, ← he]; rfl

theorem iterKeys_intact {r : Repertoire} (h : WF r) (hi : Intact (abs r)) (c : CharObj) (f l : Nat)
    (hc : r.lookup c.cp = some c) (hr : c.range = some (f, l))
    (ks : List Nat) (hs : ks.Pairwise (· < ·)) (last : Option Nat)
    -- all keys at or above the first remaining one are remaining
    (hcov : ∀ i ∈ ks, ∀ j, i ≤ j → (∃ d, r.lookup [j] = some d) → j ∈ ks)
    -- `last_cp` is the end of a block begun before, and inside a block it is the end of that block
    (hl1 : ∀ m, last = some m → ∃ f', (∃ d, r.lookup [f'] = some d ∧ d.range = some (f', m)) ∧
      ∀ i ∈ ks, f' < i)
    (hl2 : ∀ f' l', (∃ d, r.lookup [f'] = some d ∧ d.range = some (f', l')) →
      f' ∉ ks → (∃ j, f' < j ∧ j ≤ l' ∧ j ∈ ks) → last = some l') :
    c ∈ r.iterKeys last ks ↔ c.cp = [f] ∧ f ∈ ks := by
  induction ks generalizing last with
  | nil => simp [iterKeys]
  | cons i ks ih =>
    rw [List.pairwise_cons] at hs
    rw [iterKeys_cons]
    obtain ⟨x0, hx0, hfx, hxl⟩ := (lookup_charWF h hc).rangeCp f l hr
    have hcov' : ∀ i' ∈ ks, ∀ j, i' ≤ j → (∃ d, r.lookup [j] = some d) → j ∈ ks := by
      intro i' hi' j hij hd
      have := hcov i' (by simp [hi']) j hij hd
      rcases List.mem_cons.1 this with rfl | h2
      · have := hs.1 i' hi'; omega
      · exact h2
    have hbk : ∀ d ∈ sortAsc CharObj.len (r.bucket i), r.lookup d.cp = some d := by
      intro d hd
      have hd' := (mem_sortAsc _).1 hd
      obtain ⟨t, ht⟩ := bucket_first h hd'
      exact (lookup_eq_some h).2 ⟨i, t, ht, hd', rfl⟩
    -- blocks containing `i`
    have huniq : ∀ p q d, r.lookup [i] = some d → d.range = some p →
        (∃ d', r.lookup [i] = some d' ∧ d'.range = some q) → p = q := by
      rintro p q d h1 h2 ⟨d', h3, h4⟩
      rw [h1] at h3; injection h3 with h3; subst h3; rw [h2] at h4; injection h4
    rcases bucket_split h i with hnr | ⟨A, d, B, f', l', hb, hd, hdcp, hf'i, hil', hA, hB⟩
    · -- no range entry at `i`: `i` is in no block
      have hno : ∀ f1 l1, (∃ d, r.lookup [f1] = some d ∧ d.range = some (f1, l1)) →
          ¬ (f1 ≤ i ∧ i ≤ l1) := by
        rintro f1 l1 ⟨d1, hd1, hd1r⟩ ⟨h1, h2⟩
        obtain ⟨d2, hd2, hd2r⟩ := intact_lookup hi hd1 hd1r i h1 h2
        obtain ⟨_, _, he, hm, _⟩ := (lookup_eq_some h).1 hd2
        injection he with he1 _; subst he1
        have := hnr d2 ((mem_sortAsc _).2 hm)
        rw [hd2r] at this; simp at this
      rw [iterBucket_noRange _ _ hnr]
      have hreset : reset last i = none := by
        unfold reset
        cases hlast : last with
        | none => rfl
        | some m =>
          obtain ⟨f1, hd1, hlt⟩ := hl1 m hlast
          have := hno f1 m hd1
          have := hlt i (by simp)
          simp only; rw [if_pos]; omega
      rw [hreset]
      have := ih hs.2 none hcov' (by simp) (by
        intro f1 l1 hd1 hf1 hex
        exfalso
        obtain ⟨j, hj1, hj2, hj3⟩ := hex
        have hij := hs.1 j hj3
        have := hno f1 l1 hd1
        by_cases hf1i : f1 ≤ i
        · exact this ⟨hf1i, by omega⟩
        · have : f1 ∈ i :: ks := hcov i (by simp) f1 (by omega) ⟨_, hd1.choose_spec.1⟩
          rcases List.mem_cons.1 this with rfl | h2
          · omega
          · exact hf1 h2)
      simp only [List.mem_append, this]
      have hcn : c ∉ sortAsc CharObj.len (r.bucket i) := fun hm => by
        have := hnr c hm; rw [hr] at this; simp at this
      simp only [hcn, false_or]
      constructor
      · rintro ⟨h1, h2⟩; exact ⟨h1, by simp [h2]⟩
      · rintro ⟨h1, h2⟩
        refine ⟨h1, ?_⟩
        rcases List.mem_cons.1 h2 with rfl | h2
        · exfalso
          refine hno f l ⟨c, ?_, hr⟩ ⟨le_refl _, by rw [h1] at hx0; injection hx0 with hx0; omega⟩
          rw [← h1]; exact hc
        · exact h2
    · -- a range entry at `i`, block (f', l')
      have hdl : r.lookup [i] = some d := by
        rw [← hdcp]; exact hbk d (by rw [hb]; simp)
      have hblock := intact_lookup hi hdl hd
      obtain ⟨d0, hd0, hd0r⟩ := hblock f' (le_refl _) (by omega)
      have hcd : c.cp = [i] → c = d := by
        intro h1; rw [h1, hdl] at hc; injection hc with hc; exact hc.symm
      have hcA : c ∉ A := fun hm => by have := hA c hm; rw [hr] at this; simp at this
      have hcB : c ∉ B := fun hm => by have := hB c hm; rw [hr] at this; simp at this
      -- conditions to recurse with `some l'`
      have hl1' : ∀ m, (some l' : Option Nat) = some m →
          ∃ f'', (∃ d, r.lookup [f''] = some d ∧ d.range = some (f'', m)) ∧ ∀ j ∈ ks, f'' < j := by
        intro m hm; injection hm with hm; subst hm
        refine ⟨f', ⟨d0, hd0, hd0r⟩, ?_⟩
        intro j hj; have := hs.1 j hj; omega
      have hl2' : ∀ f1 l1, (∃ d, r.lookup [f1] = some d ∧ d.range = some (f1, l1)) →
          f1 ∉ ks → (∃ j, f1 < j ∧ j ≤ l1 ∧ j ∈ ks) → (some l' : Option Nat) = some l1 := by
        rintro f1 l1 ⟨d1, hd1, hd1r⟩ hf1 ⟨j, hj1, hj2, hj3⟩
        have hij := hs.1 j hj3
        by_cases hf1i : f1 ≤ i
        · have := huniq (f', l') (f1, l1) d hdl hd (intact_lookup hi hd1 hd1r i hf1i (by omega))
          injection this with _ h2; rw [h2]
        · exfalso
          have : f1 ∈ i :: ks := hcov i (by simp) f1 (by omega) ⟨_, hd1⟩
          rcases List.mem_cons.1 this with rfl | h2
          · omega
          · exact hf1 h2
      have hrec := ih hs.2 (some l') hcov' hl1' hl2'
      rw [hb]
      by_cases hfi : f' = i
      · -- beginning of the block
        subst hfi
        have hreset : reset last f' = none := by
          unfold reset
          cases hlast : last with
          | none => rfl
          | some m =>
            obtain ⟨f1, ⟨d1, hd1, hd1r⟩, hlt⟩ := hl1 m hlast
            have hlt := hlt f' (by simp)
            simp only; rw [if_pos]
            by_contra hge
            have := huniq (f', l') (f1, m) d hdl hd
              (intact_lookup hi hd1 hd1r f' (by omega) (by omega))
            injection this with h1 _; omega
        rw [hreset, iterBucket_one _ A B d f' l' hd hA hB]
        simp only [List.mem_append, List.mem_cons, hcA, hcB, false_or, or_false, hrec]
        constructor
        · rintro (rfl | ⟨h1, h2⟩)
          · rw [hd] at hr; injection hr with hr; injection hr with hr1 _
            exact ⟨by rw [hdcp, hr1], Or.inl hr1.symm⟩
          · exact ⟨h1, Or.inr h2⟩
        · rintro ⟨h1, h2 | h2⟩
          · left; exact hcd (by rw [h1, h2])
          · exact Or.inr ⟨h1, h2⟩
      · -- inside the block
        have hlast : last = some l' := by
          refine hl2 f' l' ⟨d0, hd0, hd0r⟩ ?_ ⟨i, by omega, hil', by simp⟩
          intro hm
          rcases List.mem_cons.1 hm with h1 | h1
          · exact hfi h1
          · have := hs.1 f' h1; omega
        have hreset : reset last i = some l' := by
          rw [hlast]; simp [reset]; omega
        rw [hreset, iterBucket_one _ A B d f' l' hd hA hB]
        simp only [List.mem_append, List.mem_cons, hcA, hcB, false_or, hrec]
        constructor
        · rintro ⟨h1, h2⟩; exact ⟨h1, Or.inr h2⟩
        · rintro ⟨h1, h2 | h2⟩
          · exfalso
            have := hcd (by rw [h1, h2]); subst this
            rw [hd] at hr; injection hr with hr; injection hr with hr1 _
            exact hfi (by omega)
          · exact ⟨h1, h2⟩

/-! ## The property -/

/-- **C03** The listing is in ascending order (first code point, then length). -/
theorem iter_ascending (ops : List Op) : (run {} ops).iter.Pairwise Before := by
  have h := wf_run ops
  exact (full_sorted h (keys_sorted h)).sublist (iterKeys_sublist _ _ _)

/-- **C03** Nothing is listed twice and everything listed is in the repertoire. -/
theorem iter_sound (ops : List Op) :
    ((run {} ops).iter.map CharObj.cp).Nodup ∧
    ∀ c ∈ (run {} ops).iter, (run {} ops).getChar c.cp = .ok c := by
  have h := wf_run ops
  have hs := iterKeys_sublist (run {} ops) none (sortAsc id ((run {} ops).dict.map Prod.fst))
  exact ⟨(full_nodup h).sublist (hs.map _), fun c hc => (mem_full h c).1 (hs.subset hc)⟩

/-- **C03** Every entry that is not part of a range is listed. -/
theorem iter_complete_nonrange (ops : List Op) (k : Seq) (c : CharObj)
    (hc : (run {} ops).getChar k = .ok c) (hr : c.range = none) : c ∈ (run {} ops).iter := by
  have h := wf_run ops
  have hk := get_char_own_cp ops k c hc
  subst hk
  exact (iterKeys_nonrange _ _ _ c hr).2 ((mem_full h c).2 hc)

/-- **C03** At most one entry per range is listed. -/
theorem iter_range_at_most_once (ops : List Op) (c d : CharObj) (p : Nat × Nat)
    (hc : c ∈ (run {} ops).iter) (hd : d ∈ (run {} ops).iter)
    (hcp : c.range = some p) (hdp : d.range = some p) : c = d :=
  iterKeys_range_once (wf_run ops) _ (keys_sorted (wf_run ops)) none c d p hc hd hcp hdp

/-- **C03** When ranges are intact, a range entry is listed iff it is the first of its range. -/
theorem iter_intact_range (ops : List Op) (hi : Intact (abs (run {} ops)))
    (k : Seq) (c : CharObj) (f l : Nat) (hc : (run {} ops).getChar k = .ok c)
    (hr : c.range = some (f, l)) : c ∈ (run {} ops).iter ↔ k = [f] := by
  have h := wf_run ops
  have hk := get_char_own_cp ops k c hc
  subst hk
  have hl := getChar_ok.1 hc
  have hkeys : ∀ j, (∃ d, (run {} ops).lookup [j] = some d) →
      j ∈ sortAsc id ((run {} ops).dict.map Prod.fst) := by
    rintro j ⟨d, hd⟩
    obtain ⟨_, _, he, hm, _⟩ := (lookup_eq_some h).1 hd
    injection he with he _; subst he
    obtain ⟨p, hp, hpi, _⟩ := bucket_mem hm
    exact (mem_sortAsc _).2 (List.mem_map.2 ⟨p, hp, hpi⟩)
  have := iterKeys_intact h hi c f l hl hr _ (keys_sorted h) none
    (fun _ _ j _ hd => hkeys j hd) (by simp)
    (by rintro f' l' ⟨d, hd, _⟩ hn _; exact absurd (hkeys f' ⟨d, hd⟩) hn)
  unfold iter
  rw [this]
  constructor
  · exact fun h => h.1
  · intro hk
    obtain ⟨x, hx, h1, h2⟩ := (lookup_charWF h hl).rangeCp f l hr
    refine ⟨hk, ?_⟩
    exact hkeys f ⟨c, by rw [← hk]; exact hl⟩

/-- Ranges stay intact under every successful call except deleting a single code point that
belongs to a range. -/
theorem intact_step (ops : List Op) (op : Op) (b : Bool) (hi : Intact (abs (run {} ops)))
    (hok : ((run {} ops).step op).2 = .ok b)
    (hdel : ∀ k, op = .delChar k → ∀ e, (abs (run {} ops)).map k = some e → e.range = none) :
    Intact (abs ((run {} ops).step op).1) := by
  obtain ⟨_, h2, h3⟩ := step_refines (wf_run ops) op
  rw [h2]; rw [h3] at hok
  generalize abs (run {} ops) = s at hi hok hdel
  have editv : ∀ k vop, (specStep.editVar s k vop).2 = .ok b →
      Intact (specStep.editVar s k vop).1 := by
    intro k vop hok
    unfold specStep.editVar at hok ⊢
    by_cases hk : k = []
    · simp [hk] at hok
    simp only [if_neg hk] at hok ⊢
    cases hm : s.map k with
    | none => simp [hm] at hok
    | some e =>
      by_cases hr : e.range.isSome
      · simp [hm, hr] at hok
      simp only [hr, Bool.false_eq_true, if_false]
      have hmap : ∀ x e', setAt s.map k (some { e with vars := (C08.specStep k e.vars vop).1 }) x =
          some e' → ∃ e0, s.map x = some e0 ∧ e0.range = e'.range := by
        intro x e' hx
        simp only [setAt] at hx
        split at hx
        · rename_i hxk
          injection hx with hx; subst hx
          exact ⟨e, by rw [hxk, hm], rfl⟩
        · exact ⟨e', hx, rfl⟩
      refine ⟨hi.proper, hi.nodup, ?_, ?_⟩
      · intro p hp x h1 h2
        obtain ⟨e', he', her⟩ := hi.present p hp x h1 h2
        simp only [setAt]
        split
        · rename_i hxk
          rw [← hxk, he'] at hm; injection hm with hm; subst hm
          rw [her] at hr; simp at hr
        · exact ⟨e', he', her⟩
      · intro x e' p hx hp
        obtain ⟨e0, h1, h2⟩ := hmap x e' hx
        exact hi.declared x e0 p h1 (by rw [h2]; exact hp)
  cases op with
  | addVariant k v => exact editv k _ hok
  | delVariant k v w n => exact editv k _ hok
  | addChar k a =>
    simp only [specStep] at hok ⊢
    by_cases hk : k = []
    · simp [hk] at hok
    by_cases hs : (s.map k).isSome
    · simp [hk, hs] at hok
    rw [if_neg hk, if_neg hs]
    refine ⟨hi.proper, hi.nodup, ?_, ?_⟩
    · intro p hp x h1 h2
      obtain ⟨e', he', her⟩ := hi.present p hp x h1 h2
      simp only [setAt]
      split
      · rename_i hxk; rw [← hxk, he'] at hs; simp at hs
      · exact ⟨e', he', her⟩
    · intro x e' p hx hp
      simp only [setAt] at hx
      split at hx
      · injection hx with hx; subst hx; simp at hp
      · exact hi.declared x e' p hx hp
  | delChar k =>
    simp only [specStep] at hok ⊢
    by_cases hk : k = []
    · simp [hk] at hok
    by_cases hs : (s.map k).isSome
    swap
    · simp [hk, hs] at hok
    simp only [hk, hs, if_false, if_true]
    refine ⟨hi.proper, hi.nodup, ?_, ?_⟩
    · intro p hp x h1 h2
      obtain ⟨e', he', her⟩ := hi.present p hp x h1 h2
      simp only [setAt]
      split
      · rename_i hxk
        have := hdel k rfl e' (by rw [← hxk]; exact he')
        rw [her] at this; simp at this
      · exact ⟨e', he', her⟩
    · intro x e' p hx hp
      simp only [setAt] at hx
      split at hx
      · simp at hx
      · exact hi.declared x e' p hx hp
  | addRange f l a skip =>
    simp only [specStep] at hok ⊢
    by_cases hfl : f < l
    swap
    · simp [hfl] at hok
    simp only [hfl, not_true, if_false] at hok ⊢
    split at hok
    · simp at hok
    rename_i ho
    rw [if_neg ho]
    cases hf : firstIn f l (fun x => (s.map [x]).isSome) with
    | some x => simp [hf] at hok
    | none =>
      rw [firstIn_none] at hf
      have hdisj : ∀ p ∈ s.ranges, ∀ x, p.1 ≤ x → x ≤ p.2 → ¬ (f ≤ x ∧ x ≤ l) := by
        intro p hp x h1 h2 ⟨h3, h4⟩
        obtain ⟨e, he, _⟩ := hi.present p hp x h1 h2
        have := hf x h3 h4
        rw [he] at this; simp at this
      have hnin : (f, l) ∉ s.ranges := fun hm => hdisj _ hm f (le_refl _) (le_of_lt hfl) ⟨le_refl _, le_of_lt hfl⟩
      simp only
      refine ⟨?_, ?_, ?_, ?_⟩
      · intro p hp
        rcases Multiset.mem_add.1 hp with hp | hp
        · exact hi.proper p hp
        · rw [Multiset.mem_singleton] at hp; subst hp; exact hfl
      · rw [Multiset.nodup_add]
        refine ⟨hi.nodup, Multiset.nodup_singleton _, ?_⟩
        rw [Multiset.disjoint_singleton]; exact hnin
      · intro p hp x h1 h2
        rcases Multiset.mem_add.1 hp with hp | hp
        · obtain ⟨e, he, her⟩ := hi.present p hp x h1 h2
          have := hdisj p hp x h1 h2
          simp only [setRange]
          rw [if_neg (by omega)]
          exact ⟨e, he, her⟩
        · rw [Multiset.mem_singleton] at hp; subst hp
          simp only at h1 h2
          simp only [setRange]
          rw [if_pos (by omega)]
          exact ⟨_, rfl, rfl⟩
      · intro k e p hk hp
        simp only [setRange_apply] at hk
        split at hk
        · rename_i hx
          injection hk with hk; subst hk
          simp only [Option.some.injEq] at hp; subst hp
          obtain ⟨x, hx, rfl⟩ := hx
          exact ⟨by simp, x, rfl, hx.1, by simp only; omega⟩
        · obtain ⟨h1, h2⟩ := hi.declared k e p hk hp
          exact ⟨Multiset.mem_add.2 (Or.inl h1), h2⟩
  | delRange f l =>
    simp only [specStep] at hok ⊢
    by_cases hfl : f < l
    swap
    · simp [hfl] at hok
    by_cases hin : (f, l) ∈ s.ranges
    swap
    · simp [hfl, hin] at hok
    simp only [hfl, hin, not_true, if_false] at hok ⊢
    cases hf : firstIn f l (fun x => (s.map [x]).isNone) with
    | some x => simp [hf] at hok
    | none =>
      have hmem : ∀ p, p ∈ s.ranges.erase (f, l) ↔ p ∈ s.ranges ∧ p ≠ (f, l) := by
        intro p; rw [Multiset.Nodup.mem_erase_iff hi.nodup]; tauto
      refine ⟨?_, hi.nodup.erase _, ?_, ?_⟩
      · intro p hp; exact hi.proper p ((hmem p).1 hp).1
      · intro p hp x h1 h2
        obtain ⟨hp1, hp2⟩ := (hmem p).1 hp
        obtain ⟨e, he, her⟩ := hi.present p hp1 x h1 h2
        simp only [setRange]
        rw [if_neg]
        · exact ⟨e, he, her⟩
        · rintro ⟨h3, h4⟩
          obtain ⟨e', he', her'⟩ := hi.present (f, l) hin x h3 (by simp only; omega)
          rw [he] at he'; injection he' with he'; subst he'
          rw [her] at her'; injection her' with her'
          exact hp2 her'
      · intro k e p hk hp
        simp only [setRange_apply] at hk
        split at hk
        · simp at hk
        · rename_i hx
          obtain ⟨h1, x, hkx, h2, h3⟩ := hi.declared k e p hk hp
          refine ⟨(hmem p).2 ⟨h1, ?_⟩, x, hkx, h2, h3⟩
          rintro rfl
          exact hx ⟨x, ⟨h2, by simp only at h3; omega⟩, hkx⟩

/-! Non-vacuity. -/
example : ((run {} [.addRange 100 102 {} false, .addChar [97, 98] {}, .addChar [97] {},
    .addChar [101, 97] {}, .addRange 103 104 {} false]).iter.map CharObj.cp) =
    [[97], [97, 98], [100], [101, 97], [103]] := by decide
example : Intact (abs {}) := by
  rw [abs_empty]
  exact ⟨by simp [Abs.empty], by simp [Abs.empty], by simp [Abs.empty], by simp [Abs.empty]⟩
/-- When a range lost its first code point the next one is listed in its place. -/
example : ((run {} [.addRange 100 102 {} false, .delChar [100]]).iter.map CharObj.cp) = [[101]] := by
  decide

end Lgr.Props.C03

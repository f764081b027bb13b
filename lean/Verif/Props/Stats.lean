import Verif.Checks
import Verif.Props.IterIntact

/-!
# C69: the statistics of an LGR count what is in it

The specification counts sets of sequences, ranges and variants as `get_char` shows them.
-/

namespace Lgr.Props.C69
open Lgr Repertoire Checks LGR

/-- `k` is in the repertoire, with character `c`. -/
def Has (r : Repertoire) (k : Seq) (c : CharObj) : Prop := r.getChar k = .ok c

/-! ### The loop, field by field -/

/-- The body of the loop. -/
def body (s : Stats) (c : CharObj) : Stats := statsVariants (statsTags (statsKind s c) c) c

theorem gen_eq (n : Nat) (r : Repertoire) : generateStats n r = r.iter.foldl body { rules := n } := rfl

theorem fold_sum {f : Stats → Nat} {w : CharObj → Nat} (hb : ∀ s c, f (body s c) = f s + w c)
    (l : List CharObj) (s : Stats) : f (l.foldl body s) = f s + (l.map w).sum := by
  induction l generalizing s with
  | nil => simp
  | cons c l ih => rw [List.foldl_cons, ih, hb, List.map_cons, List.sum_cons, Nat.add_assoc]

theorem rangeLen_members (c : CharObj) : rangeLen c = (members c).length := by
  unfold rangeLen members
  cases c.range with
  | none => rfl
  | some p => simp [cpRange]

theorem body_codepoints (s : Stats) (c : CharObj) :
    (body s c).codepoints = s.codepoints + (members c).length := by
  rw [← rangeLen_members]
  simp only [body, statsVariants, statsTags, statsKind]
  by_cases hr : c.isRange
  · simp only [if_pos hr]; split <;> rfl
  · simp only [if_neg hr]
    have h1 : rangeLen c = 1 := by
      unfold rangeLen
      cases h : c.range with
      | none => rfl
      | some p => simp [CharObj.isRange, h] at hr
    rw [h1]
    by_cases hs : c.isSequence
    · rw [if_pos hs]; split <;> rfl
    · rw [if_neg hs]

theorem body_ranges (s : Stats) (c : CharObj) :
    (body s c).ranges = s.ranges + if c.isRange then 1 else 0 := by
  simp only [body, statsVariants, statsTags, statsKind]
  by_cases hr : c.isRange
  · simp only [if_pos hr]; split <;> rfl
  · simp only [if_neg hr]
    by_cases hs : c.isSequence
    · rw [if_pos hs]; split <;> rfl
    · rw [if_neg hs]; rfl

theorem body_sequences (s : Stats) (c : CharObj) :
    (body s c).sequences = s.sequences + if !c.isRange && c.isSequence then 1 else 0 := by
  simp only [body, statsVariants, statsTags, statsKind]
  by_cases hr : c.isRange
  · have h0 : (!c.isRange && c.isSequence) = false := by simp [hr]
    simp only [if_pos hr, h0]; split <;> rfl
  · simp only [if_neg hr]
    by_cases hs : c.isSequence
    · rw [if_pos hs]; split <;> simp [hr, hs]
    · rw [if_neg hs]; simp [hs]

theorem kind_keeps (s : Stats) (c : CharObj) :
    (statsKind s c).withVariants = s.withVariants ∧ (statsKind s c).mappings = s.mappings ∧
    (statsKind s c).byType = s.byType ∧ (statsKind s c).byTag = s.byTag ∧
    (statsKind s c).largestSet = s.largestSet ∧ (statsKind s c).rules = s.rules := by
  unfold statsKind
  by_cases hr : c.isRange
  · rw [if_pos hr]; dsimp only; split <;> exact ⟨rfl, rfl, rfl, rfl, rfl, rfl⟩
  · rw [if_neg hr]
    by_cases hs : c.isSequence
    · rw [if_pos hs]; dsimp only; split <;> exact ⟨rfl, rfl, rfl, rfl, rfl, rfl⟩
    · rw [if_neg hs]; exact ⟨rfl, rfl, rfl, rfl, rfl, rfl⟩

theorem body_mappings (s : Stats) (c : CharObj) :
    (body s c).mappings = s.mappings + (c.getVariants.map Variant.cp).dedup.length := by
  simp only [body, statsVariants, statsTags, (kind_keeps s c).2.1]

/-- Number of distinct code points among a character and its variants, if it has any. -/
def setLen (c : CharObj) : Nat :=
  (c.getVariants.map Variant.cp ++ if 0 < c.getVariants.length then [c.cp] else []).dedup.length

theorem setLen_pos (c : CharObj) : 0 < setLen c ↔ c.getVariants ≠ [] := by
  unfold setLen
  cases h : c.getVariants with
  | nil => simp
  | cons v vs =>
    simp only [List.length_cons, Nat.zero_lt_succ, if_true, ne_eq, reduceCtorEq, not_false_eq_true,
      iff_true]
    apply List.length_pos_of_mem (a := c.cp)
    rw [List.mem_dedup]; simp

theorem body_withVariants (s : Stats) (c : CharObj) :
    (body s c).withVariants = s.withVariants + if c.getVariants ≠ [] then 1 else 0 := by
  have h : (body s c).withVariants
      = if 0 < setLen c then (statsKind s c).withVariants + 1 else (statsKind s c).withVariants := rfl
  rw [h, (kind_keeps s c).1]
  by_cases hv : c.getVariants ≠ []
  · rw [if_pos ((setLen_pos c).2 hv), if_pos hv]
  · rw [if_neg (fun h => hv ((setLen_pos c).1 h)), if_neg hv]; rfl

theorem body_largestSet (s : Stats) (c : CharObj) :
    (body s c).largestSet = max s.largestSet (setLen c) := by
  have h : (body s c).largestSet = max (statsKind s c).largestSet (setLen c) := rfl
  rw [h, (kind_keeps s c).2.2.2.2.1]

theorem dget_bump {κ : Type} [DecidableEq κ] (d : List (κ × Nat)) (t u : κ) (n : Nat) :
    (dget (bump d t n) u).getD 0 = (dget d u).getD 0 + if t = u then n else 0 := by
  unfold bump
  rw [dget_dset]
  by_cases h : t = u
  · subst h; simp
  · simp [h]

theorem dget_bumps {κ α : Type} [DecidableEq κ] [BEq κ] [LawfulBEq κ] (key : α → κ) (n : Nat) (u : κ) (l : List α)
    (d : List (κ × Nat)) :
    (dget (l.foldl (fun d a => bump d (key a) n) d) u).getD 0
      = (dget d u).getD 0 + (l.map key).count u * n := by
  induction l generalizing d with
  | nil => simp
  | cons a l ih =>
    rw [List.foldl_cons, ih, dget_bump, List.map_cons, List.count_cons]
    by_cases h : key a = u
    · simp [h, Nat.add_mul]; omega
    · simp [h]

theorem body_byTag (t : String) (s : Stats) (c : CharObj) :
    (dget (body s c).byTag t).getD 0
      = (dget s.byTag t).getD 0 + c.attrs.tags.count t * (members c).length := by
  have h : (body s c).byTag
      = c.attrs.tags.foldl (fun d t => bump d t (rangeLen c)) (statsKind s c).byTag := rfl
  have := dget_bumps (fun t : String => t) (rangeLen c) t c.attrs.tags (statsKind s c).byTag
  rw [h, this, (kind_keeps s c).2.2.2.1, List.map_id']
  rw [rangeLen_members]

theorem body_byType (t : Option String) (s : Stats) (c : CharObj) :
    (dget (body s c).byType t).getD 0
      = (dget s.byType t).getD 0 + (c.getVariants.map Variant.type).count t := by
  have h : (body s c).byType
      = c.getVariants.foldl (fun d v => bump d v.type 1) (statsKind s c).byType := rfl
  rw [h, dget_bumps Variant.type 1 t c.getVariants, (kind_keeps s c).2.2.1, Nat.mul_one]

/-- Nothing is stored that counts nothing. -/
theorem bump_pos {κ : Type} [DecidableEq κ] {d : List (κ × Nat)} (hd : ∀ u n, dget d u = some n → 0 < n)
    (t : κ) {n : Nat} (hn : 0 < n) : ∀ u m, dget (bump d t n) u = some m → 0 < m := by
  intro u m h
  unfold bump at h
  rw [dget_dset] at h
  split at h
  · simp only [Option.some.injEq] at h; omega
  · exact hd u m h

theorem bumps_pos {κ α : Type} [DecidableEq κ] (key : α → κ) {n : Nat} (hn : 0 < n) (l : List α)
    {d : List (κ × Nat)} (hd : ∀ u n, dget d u = some n → 0 < n) :
    ∀ u m, dget (l.foldl (fun d a => bump d (key a) n) d) u = some m → 0 < m := by
  induction l generalizing d with
  | nil => exact hd
  | cons a l ih => exact ih (bump_pos hd (key a) hn)

theorem rangeLen_pos {c : CharObj} (h : CharWF c) : 0 < rangeLen c := by
  unfold rangeLen
  split
  · rename_i f l hr
    obtain ⟨_, _, h1, h2⟩ := h.rangeCp f l hr
    omega
  · simp

theorem body_pos {s : Stats} (h1 : ∀ u n, dget s.byTag u = some n → 0 < n)
    (h2 : ∀ u n, dget s.byType u = some n → 0 < n) {c : CharObj} (hc : CharWF c) :
    (∀ u n, dget (body s c).byTag u = some n → 0 < n) ∧
    (∀ u n, dget (body s c).byType u = some n → 0 < n) := by
  constructor
  · have h : (body s c).byTag
        = c.attrs.tags.foldl (fun d t => bump d t (rangeLen c)) (statsKind s c).byTag := rfl
    rw [h]
    exact bumps_pos (fun t => t) (rangeLen_pos hc) _ (by rw [(kind_keeps s c).2.2.2.1]; exact h1)
  · have h : (body s c).byType
        = c.getVariants.foldl (fun d v => bump d v.type 1) (statsKind s c).byType := rfl
    rw [h]
    exact bumps_pos Variant.type (by omega) _ (by rw [(kind_keeps s c).2.2.1]; exact h2)

theorem fold_pos (l : List CharObj) (hl : ∀ c ∈ l, CharWF c) {s : Stats}
    (h1 : ∀ u n, dget s.byTag u = some n → 0 < n) (h2 : ∀ u n, dget s.byType u = some n → 0 < n) :
    (∀ u n, dget (l.foldl body s).byTag u = some n → 0 < n) ∧
    (∀ u n, dget (l.foldl body s).byType u = some n → 0 < n) := by
  induction l generalizing s with
  | nil => exact ⟨h1, h2⟩
  | cons c l ih =>
    have hb := body_pos h1 h2 (hl c (by simp))
    exact ih (fun d hd => hl d (by simp [hd])) hb.1 hb.2

theorem fold_rules (l : List CharObj) (s : Stats) : (l.foldl body s).rules = s.rules := by
  induction l generalizing s with
  | nil => rfl
  | cons c l ih =>
    rw [List.foldl_cons, ih]
    exact (kind_keeps s c).2.2.2.2.2

/-! ### Counting -/

theorem lookup_iff {r : Repertoire} {k : Seq} {c : CharObj} : Has r k c ↔ r.lookup k = some c := getChar_ok

theorem sum_ite {α : Type} (P : α → Bool) (l : List α) :
    (l.map (fun a => if P a then 1 else 0)).sum = (l.filter P).length := by
  induction l with
  | nil => rfl
  | cons a l ih =>
    rw [List.map_cons, List.sum_cons, ih, List.filter_cons]
    by_cases h : P a
    · simp [h]; omega
    · simp [h]

theorem ncard_list {α : Type} [DecidableEq α] {S : Set α} (l : List α) (hn : l.Nodup)
    (h : ∀ a, a ∈ S ↔ a ∈ l) : S.ncard = l.length := by
  have : S = ↑l.toFinset := by ext a; simp [h]
  rw [this, Set.ncard_coe_finset, List.toFinset_card_of_nodup hn]

/-- The listed entries with a property that no member of a range has. -/
theorem count_plain {r : Repertoire} (h : WF r) (P : CharObj → Bool) :
    Set.ncard {k : Seq | ∃ c, Has r k c ∧ c.range = none ∧ P c = true}
      = (r.iter.map (fun c => if (!c.isRange && P c) then 1 else 0)).sum := by
  rw [sum_ite (fun c => !c.isRange && P c)]
  rw [ncard_list (((r.iter.filter (fun c => !c.isRange && P c)).map CharObj.cp)), List.length_map]
  · exact (iter_nodup h).sublist (List.filter_sublist.map _)
  · intro k
    simp only [Set.mem_setOf_eq, lookup_iff, List.mem_map, List.mem_filter, Bool.and_eq_true,
      Bool.not_eq_true']
    constructor
    · rintro ⟨c, hc, hr, hp⟩
      exact ⟨c, ⟨C26.mem_iter h hc hr, by simp [CharObj.isRange, hr], hp⟩, lookup_cp hc⟩
    · rintro ⟨c, ⟨hc, hr, hp⟩, rfl⟩
      exact ⟨c, C26.iter_mem h hc, by simpa [CharObj.isRange] using hr, hp⟩

theorem range_no_variants {r : Repertoire} (h : Intact r) (hwf : WF r) {k : Seq} {c : CharObj}
    (hc : r.lookup k = some c) (hr : c.range.isSome = true) : c.getVariants = [] := by
  obtain ⟨p, hp⟩ := Option.isSome_iff_exists.1 hr
  obtain ⟨f, l⟩ := p
  obtain ⟨_, a, ha⟩ := h.full f l (h.marked _ c _ hc hp)
  obtain ⟨x, hx, h1, h2⟩ := (lookup_charWF hwf hc).rangeCp f l hp
  have hk := lookup_cp hc
  rw [← hk, hx, ha x h1 h2] at hc
  rw [← Option.some.inj hc]
  rfl

/-- Pairs of a listed character and one of a list depending on it. -/
theorem ncard_pairs {β : Type} [DecidableEq β] {r : Repertoire} (h : WF r) (hi : Intact r)
    (w : CharObj → List β) (hw : ∀ c, c.getVariants = [] → w c = [])
    (hn : ∀ k c, r.lookup k = some c → (w c).Nodup) :
    Set.ncard {p : Seq × β | ∃ c, Has r p.1 c ∧ p.2 ∈ w c} = (r.iter.map (fun c => (w c).length)).sum := by
  rw [ncard_list (r.iter.flatMap (fun c => (w c).map (fun b => (c.cp, b))))]
  · induction r.iter with
    | nil => rfl
    | cons c l ih => simp only [List.flatMap_cons, List.length_append, List.length_map, ih,
        List.map_cons, List.sum_cons]
  · rw [List.nodup_flatMap]
    refine ⟨fun c hc => (hn _ c (C26.iter_mem h hc)).map (fun a b hab => by simpa using hab), ?_⟩
    have hnd : r.iter.Nodup := List.Nodup.of_map _ (iter_nodup h)
    refine hnd.imp_of_mem ?_
    intro c d hc hd hne p hpc hpd
    obtain ⟨_, _, rfl⟩ := List.mem_map.1 hpc
    obtain ⟨_, _, he⟩ := List.mem_map.1 hpd
    have hcd : d.cp = c.cp := (Prod.mk.inj he).1
    have h1 := C26.iter_mem h hc
    have h2 := C26.iter_mem h hd
    rw [hcd, h1] at h2
    exact hne (Option.some.inj h2)
  · rintro ⟨k, b⟩
    simp only [Set.mem_setOf_eq, lookup_iff, List.mem_flatMap, List.mem_map, Prod.mk.injEq]
    constructor
    · rintro ⟨c, hc, hb⟩
      have hcp := lookup_cp hc
      refine ⟨c, ?_, b, hb, hcp, rfl⟩
      refine C26.mem_iter h hc ?_
      by_contra hr
      have := range_no_variants hi h hc (Option.isSome_iff_ne_none.2 hr)
      rw [hw c this] at hb
      simp at hb
    · rintro ⟨c, hc, b', hb, rfl, rfl⟩
      exact ⟨c, C26.iter_mem h hc, hb⟩

theorem nodup_vars {r : Repertoire} (h : WF r) {k : Seq} {c : CharObj} (hc : r.lookup k = some c) :
    c.getVariants.Nodup :=
  List.Nodup.of_map _ (C08.getVariants_keys_nodup (lookup_charWF h hc).varWF)

/-- **C69** Code points, sequences, ranges and rules are counted exactly. -/
theorem entries_counted (ops : List (Ctx × LGR.Op)) (hops : Along RangeSafe {} ops) (n : Nat) :
    (generateStats n (LGR.run {} ops).rep).codepoints
      = Set.ncard {k | ∃ c, Has (LGR.run {} ops).rep k c} ∧
    (generateStats n (LGR.run {} ops).rep).sequences
      = Set.ncard {k | ∃ c, Has (LGR.run {} ops).rep k c ∧ 1 < k.length} ∧
    (generateStats n (LGR.run {} ops).rep).ranges
      = Set.ncard {p | ∃ k c, Has (LGR.run {} ops).rep k c ∧ c.range = some p} ∧
    (generateStats n (LGR.run {} ops).rep).rules = n := by
  have h := (run_wf ops).1
  have hi := C06.intact_history ops hops
  generalize (LGR.run {} ops).rep = r at h hi
  refine ⟨?_, ?_, ?_, ?_⟩
  · rw [gen_eq, fold_sum (f := Stats.codepoints) body_codepoints]
    have := count_iter h hi (fun _ => true) (fun _ _ _ => rfl)
    simp only [and_true, if_true] at this
    simp only [lookup_iff, this, Nat.zero_add]
  · rw [gen_eq, fold_sum (f := Stats.sequences) body_sequences]
    have := count_plain h CharObj.isSequence
    rw [Nat.zero_add, ← this]
    congr 1
    ext k
    simp only [Set.mem_setOf_eq, lookup_iff]
    constructor
    · rintro ⟨c, hc, _, hs⟩
      exact ⟨c, hc, by rw [← lookup_cp hc]; simpa [CharObj.isSequence] using hs⟩
    · rintro ⟨c, hc, hs⟩
      have hk := lookup_cp hc
      refine ⟨c, hc, ?_, by simpa [CharObj.isSequence, hk] using hs⟩
      cases hr : c.range with
      | none => rfl
      | some p =>
        obtain ⟨x, hx, _⟩ := (lookup_charWF h hc).rangeCp p.1 p.2 hr
        rw [← hk, hx] at hs; simp at hs
  · rw [gen_eq, fold_sum (f := Stats.ranges) body_ranges, sum_ite]
    rw [ncard_list (r.iter.filterMap CharObj.range)]
    · simp only [Nat.zero_add]
      induction r.iter with
      | nil => rfl
      | cons c l ih =>
        cases hr : c.range with
        | none => simp [CharObj.isRange, hr] at ih ⊢; exact ih
        | some p => simp [CharObj.isRange, hr] at ih ⊢; exact ih
    · have hnd : r.iter.Nodup := List.Nodup.of_map _ (iter_nodup h)
      rw [List.nodup_iff_pairwise_ne, List.pairwise_filterMap]
      rw [List.nodup_iff_pairwise_ne] at hnd
      refine hnd.imp_of_mem ?_
      intro c d hc hd hne p hp q hq hpq
      subst hpq
      have h1 := (mem_iter_intact h hi c).1 hc
      have h2 := (mem_iter_intact h hi d).1 hd
      have : c.cp = d.cp := (h1.2 _ _ hp).trans (h2.2 _ _ hq).symm
      rw [this] at h1
      exact hne (Option.some.inj (h1.1.symm.trans h2.1))
    · intro p
      simp only [Set.mem_setOf_eq, lookup_iff, List.mem_filterMap]
      constructor
      · rintro ⟨k, c, hc, hr⟩
        obtain ⟨f, l⟩ := p
        obtain ⟨hfl, a, ha⟩ := hi.full f l (hi.marked _ c _ hc hr)
        refine ⟨{ cp := [f], range := some (f, l), attrs := a },
          (mem_iter_intact h hi _).2 ⟨ha f (le_refl _) (le_of_lt hfl), ?_⟩, rfl⟩
        intro f' l' he
        simp only [Option.some.injEq, Prod.mk.injEq] at he
        rw [he.1]
      · rintro ⟨c, hc, hr⟩
        exact ⟨_, c, C26.iter_mem h hc, hr⟩
  · rw [gen_eq, fold_rules]

/-- **C69** Variants are counted exactly: characters with variants, distinct mappings, variants per
type. -/
theorem variants_counted (ops : List (Ctx × LGR.Op)) (hops : Along RangeSafe {} ops) (n : Nat) :
    (generateStats n (LGR.run {} ops).rep).withVariants
      = Set.ncard {k | ∃ c, Has (LGR.run {} ops).rep k c ∧ c.getVariants ≠ []} ∧
    (generateStats n (LGR.run {} ops).rep).mappings
      = Set.ncard {p : Seq × Seq | ∃ c, Has (LGR.run {} ops).rep p.1 c ∧ ∃ v ∈ c.getVariants, v.cp = p.2} ∧
    ∀ t, ((dget (generateStats n (LGR.run {} ops).rep).byType t).getD 0
        = Set.ncard {p : Seq × Variant | ∃ c, Has (LGR.run {} ops).rep p.1 c ∧ p.2 ∈ c.getVariants ∧
          p.2.type = t}) ∧
      dget (generateStats n (LGR.run {} ops).rep).byType t ≠ some 0 := by
  have h := (run_wf ops).1
  have hi := C06.intact_history ops hops
  generalize (LGR.run {} ops).rep = r at h hi
  refine ⟨?_, ?_, ?_⟩
  · rw [gen_eq, fold_sum (f := Stats.withVariants) body_withVariants]
    have := count_plain h (fun c => decide (c.getVariants ≠ []))
    have he : {k | ∃ c, Has r k c ∧ c.getVariants ≠ []}
        = {k | ∃ c, Has r k c ∧ c.range = none ∧ decide (c.getVariants ≠ []) = true} := by
      ext k
      simp only [Set.mem_setOf_eq, decide_eq_true_eq]
      constructor
      · rintro ⟨c, hc, hv⟩
        refine ⟨c, hc, ?_, hv⟩
        by_contra hr
        exact hv (range_no_variants hi h (lookup_iff.1 hc) (Option.isSome_iff_ne_none.2 hr))
      · rintro ⟨c, hc, _, hv⟩
        exact ⟨c, hc, hv⟩
    rw [he, this, Nat.zero_add]
    congr 1
    apply List.map_congr_left
    intro c hc
    by_cases hr : c.isRange
    · have := range_no_variants hi h (C26.iter_mem h hc) hr
      simp [this]
    · simp [hr]
  · rw [gen_eq, fold_sum (f := Stats.mappings) body_mappings, Nat.zero_add,
      ← ncard_pairs h hi (fun c => (c.getVariants.map Variant.cp).dedup) (by intro c hc; simp [hc])
        (fun _ _ _ => List.nodup_dedup _)]
    congr 1
    ext p
    simp [List.mem_dedup]
  · intro t
    constructor
    · rw [gen_eq, fold_sum (f := fun s => (dget s.byType t).getD 0) (body_byType t)]
      have := ncard_pairs h hi (fun c => c.getVariants.filter (fun v => decide (v.type = t)))
        (by intro c hc; simp [hc]) (fun _ _ hc => (nodup_vars h hc).filter _)
      simp only [List.mem_filter, decide_eq_true_eq] at this
      rw [this]
      simp only [dget, Option.getD_none, Nat.zero_add]
      congr 1
      apply List.map_congr_left
      intro c _
      induction c.getVariants with
      | nil => rfl
      | cons v l ih =>
        rw [List.map_cons, List.count_cons, ih, List.filter_cons]
        by_cases hv : v.type = t <;> simp [hv]
    · intro h0
      have := (fold_pos r.iter (fun c hc => lookup_charWF h (C26.iter_mem h hc))
        (s := { rules := n }) (by simp [dget]) (by simp [dget])).2 t 0 (by rw [← gen_eq]; exact h0)
      omega

/-- **C69** Tags are counted exactly, as long as no entry was given one tag twice by force. -/
theorem tags_counted_partial (ops : List (Ctx × LGR.Op)) (hops : Along RangeSafe {} ops)
    (hd : ∀ p ∈ ops, NoForcedDup p.2) (n : Nat) (t : String) :
    (dget (generateStats n (LGR.run {} ops).rep).byTag t).getD 0
      = Set.ncard {k | ∃ c, Has (LGR.run {} ops).rep k c ∧ t ∈ c.attrs.tags} ∧
    dget (generateStats n (LGR.run {} ops).rep).byTag t ≠ some 0 := by
  have h := (run_wf ops).1
  have hi := C06.intact_history ops hops
  have ht := fun k c (hc : (LGR.run {} ops).rep.lookup k = some c) => ((tidy_run ops hd).2 k c hc).tags
  generalize (LGR.run {} ops).rep = r at h hi ht
  constructor
  · rw [gen_eq, fold_sum (f := fun s => (dget s.byTag t).getD 0) (body_byTag t)]
    have := count_iter h hi (fun c => decide (t ∈ c.attrs.tags)) (by
      intro c d hd
      unfold members at hd
      split at hd
      · obtain ⟨x, _, rfl⟩ := List.mem_map.1 hd; rfl
      · rw [List.mem_singleton.1 hd])
    simp only [decide_eq_true_eq] at this
    simp only [lookup_iff, this, dget, Option.getD_none, Nat.zero_add]
    congr 1
    apply List.map_congr_left
    intro c hc
    have hn := ht _ c (C26.iter_mem h hc)
    by_cases hm : t ∈ c.attrs.tags
    · rw [if_pos hm, List.count_eq_one_of_mem hn hm, Nat.one_mul]
    · rw [if_neg hm, List.count_eq_zero_of_not_mem hm, Nat.zero_mul]
  · intro h0
    have := (fold_pos r.iter (fun c hc => lookup_charWF h (C26.iter_mem h hc))
      (s := { rules := n }) (by simp [dget]) (by simp [dget])).1 t 0 (by rw [← gen_eq]; exact h0)
    omega

/-! ### The largest -/

/-- `who` is the first of the largest among those of `seen` with `P`, `best` its size. -/
def Largest (P : CharObj → Prop) (w : CharObj → Nat) (seen : List CharObj) (best : Nat)
    (who : Option CharObj) : Prop :=
  match who with
  | none => best = 0 ∧ ∀ c ∈ seen, ¬ P c
  | some c => best = w c ∧ c ∈ seen ∧ P c ∧ ∀ d ∈ seen, P d → w d ≤ best

theorem largest_skip {P : CharObj → Prop} {w : CharObj → Nat} {seen : List CharObj} {best : Nat}
    {who : Option CharObj} (h : Largest P w seen best who) {c : CharObj}
    (hc : P c → who.isSome = true ∧ w c ≤ best) : Largest P w (seen ++ [c]) best who := by
  cases who with
  | none =>
    refine ⟨h.1, ?_⟩
    intro d hd
    rcases List.mem_append.1 hd with hd | hd
    · exact h.2 d hd
    · rw [List.mem_singleton.1 hd]
      intro hp
      simpa using (hc hp).1
  | some x =>
    refine ⟨h.1, by simp [h.2.1], h.2.2.1, ?_⟩
    intro d hd hp
    rcases List.mem_append.1 hd with hd | hd
    · exact h.2.2.2 d hd hp
    · rw [List.mem_singleton.1 hd] at hp ⊢
      exact (hc hp).2

theorem largest_take {P : CharObj → Prop} {w : CharObj → Nat} {seen : List CharObj} {best : Nat}
    {who : Option CharObj} (h : Largest P w seen best who) {c : CharObj} (hp : P c) (hlt : best < w c) :
    Largest P w (seen ++ [c]) (w c) (some c) := by
  refine ⟨rfl, by simp, hp, ?_⟩
  intro d hd hpd
  rcases List.mem_append.1 hd with hd | hd
  · cases who with
    | none => exact absurd hpd (h.2 d hd)
    | some x => exact le_trans (h.2.2.2 d hd hpd) (le_of_lt hlt)
  · rw [List.mem_singleton.1 hd]

theorem fold_largest {best : Stats → Nat} {who : Stats → Option CharObj} {P : CharObj → Prop}
    [DecidablePred P] {w : CharObj → Nat}
    (hb : ∀ s c, if P c ∧ best s < w c then best (body s c) = w c ∧ who (body s c) = some c
      else best (body s c) = best s ∧ who (body s c) = who s)
    (l : List CharObj) (hw : ∀ c ∈ l, P c → 0 < w c) (s : Stats) (seen : List CharObj)
    (h : Largest P w seen (best s) (who s)) :
    Largest P w (seen ++ l) (best (l.foldl body s)) (who (l.foldl body s)) := by
  induction l generalizing s seen with
  | nil => simpa using h
  | cons c l ih =>
    have e : seen ++ c :: l = (seen ++ [c]) ++ l := by simp
    rw [e, List.foldl_cons]
    apply ih (fun d hd => hw d (by simp [hd]))
    have := hb s c
    by_cases hc : P c ∧ best s < w c
    · rw [if_pos hc] at this
      rw [this.1, this.2]
      exact largest_take h hc.1 hc.2
    · rw [if_neg hc] at this
      rw [this.1, this.2]
      refine largest_skip h (fun hp => ?_)
      have hle : w c ≤ best s := by
        by_contra hn; exact hc ⟨hp, by omega⟩
      refine ⟨?_, hle⟩
      have h0 := hw c (by simp) hp
      cases hwho : who s with
      | some x => rfl
      | none => rw [hwho] at h; have := h.1; omega

theorem body_largestRange (s : Stats) (c : CharObj) :
    if c.isRange = true ∧ s.largestRangeLen < rangeLen c then
      (body s c).largestRangeLen = rangeLen c ∧ (body s c).largestRange = some c
    else (body s c).largestRangeLen = s.largestRangeLen ∧ (body s c).largestRange = s.largestRange := by
  have h1 : (body s c).largestRangeLen = (statsKind s c).largestRangeLen := rfl
  have h2 : (body s c).largestRange = (statsKind s c).largestRange := rfl
  rw [h1, h2]
  unfold statsKind
  by_cases hr : c.isRange
  · rw [if_pos hr]
    dsimp only
    by_cases hl : s.largestRangeLen < rangeLen c
    · simp [hr, hl]
    · simp [hl]
  · rw [if_neg hr, if_neg (by simp [hr])]
    by_cases hs : c.isSequence
    · rw [if_pos hs]; dsimp only; split <;> exact ⟨rfl, rfl⟩
    · rw [if_neg hs]; exact ⟨rfl, rfl⟩

theorem body_largestSequence (s : Stats) (c : CharObj) :
    if (c.isRange = false ∧ c.isSequence = true) ∧ s.largestSequenceLen < c.cp.length then
      (body s c).largestSequenceLen = c.cp.length ∧ (body s c).largestSequence = some c
    else (body s c).largestSequenceLen = s.largestSequenceLen ∧
      (body s c).largestSequence = s.largestSequence := by
  have h1 : (body s c).largestSequenceLen = (statsKind s c).largestSequenceLen := rfl
  have h2 : (body s c).largestSequence = (statsKind s c).largestSequence := rfl
  rw [h1, h2]
  unfold statsKind
  by_cases hr : c.isRange
  · rw [if_pos hr, if_neg (by simp [hr])]
    dsimp only
    split <;> exact ⟨rfl, rfl⟩
  · rw [if_neg hr]
    by_cases hs : c.isSequence
    · rw [if_pos hs]
      dsimp only
      by_cases hl : s.largestSequenceLen < c.cp.length
      · simp [hr, hs, hl]
      · simp [hl]
    · rw [if_neg hs, if_neg (by simp [hs])]; exact ⟨rfl, rfl⟩

/-- **C69** The largest range reported is one of the ranges, and no range is larger; none is reported
only if there is none. -/
theorem largest_range (ops : List (Ctx × LGR.Op)) (hops : Along RangeSafe {} ops) (n : Nat) :
    match (generateStats n (LGR.run {} ops).rep).largestRange with
    | none => (generateStats n (LGR.run {} ops).rep).largestRangeLen = 0 ∧
        ∀ k c, Has (LGR.run {} ops).rep k c → c.range = none
    | some c => ∃ f l, Has (LGR.run {} ops).rep [f] c ∧ c.range = some (f, l) ∧
        (generateStats n (LGR.run {} ops).rep).largestRangeLen = l + 1 - f ∧
        ∀ k d f' l', Has (LGR.run {} ops).rep k d → d.range = some (f', l') → l' + 1 - f' ≤ l + 1 - f := by
  have h := (run_wf ops).1
  have hi := C06.intact_history ops hops
  generalize (LGR.run {} ops).rep = r at h hi
  have key := fold_largest (best := Stats.largestRangeLen) (who := Stats.largestRange)
    (P := fun c => c.isRange = true) (w := rangeLen) body_largestRange r.iter
    (fun c hc _ => rangeLen_pos (lookup_charWF h (C26.iter_mem h hc))) { rules := n } []
    ⟨rfl, by simp⟩
  rw [List.nil_append, ← gen_eq] at key
  have first : ∀ k d f l, r.lookup k = some d → d.range = some (f, l) →
      ∃ c ∈ r.iter, c.range = some (f, l) := by
    intro k d f l hd hr
    obtain ⟨hfl, a, ha⟩ := hi.full f l (hi.marked _ d _ hd hr)
    refine ⟨{ cp := [f], range := some (f, l), attrs := a },
      (mem_iter_intact h hi _).2 ⟨ha f (le_refl _) (le_of_lt hfl), ?_⟩, rfl⟩
    intro f' l' he
    simp only [Option.some.injEq, Prod.mk.injEq] at he
    rw [he.1]
  cases hw : (generateStats n r).largestRange with
  | none =>
    rw [hw] at key
    refine ⟨key.1, ?_⟩
    intro k c hc
    cases hr : c.range with
    | none => rfl
    | some p =>
      obtain ⟨d, hd, hdr⟩ := first k c p.1 p.2 (lookup_iff.1 hc) hr
      exact absurd (by simp [CharObj.isRange, hdr]) (key.2 d hd)
  | some c =>
    rw [hw] at key
    obtain ⟨h1, h2, h3, h4⟩ := key
    obtain ⟨p, hp⟩ := Option.isSome_iff_exists.1 h3
    have hc := (mem_iter_intact h hi c).1 h2
    have hl : rangeLen c = p.2 + 1 - p.1 := by simp [rangeLen, hp]
    refine ⟨p.1, p.2, ?_, hp, by rw [h1, hl], ?_⟩
    · rw [lookup_iff, ← hc.2 p.1 p.2 hp]; exact hc.1
    · intro k d f' l' hd hr
      obtain ⟨e, he, her⟩ := first k d f' l' (lookup_iff.1 hd) hr
      have := h4 e he (by simp [CharObj.isRange, her])
      rw [h1, hl] at this
      simpa [rangeLen, her] using this

/-- **C69** The largest sequence reported is in the repertoire, and none is longer; none is reported
only if there is no sequence. -/
theorem largest_sequence (ops : List (Ctx × LGR.Op)) (n : Nat) :
    match (generateStats n (LGR.run {} ops).rep).largestSequence with
    | none => (generateStats n (LGR.run {} ops).rep).largestSequenceLen = 0 ∧
        ∀ k c, Has (LGR.run {} ops).rep k c → k.length = 1
    | some c => Has (LGR.run {} ops).rep c.cp c ∧ 1 < c.cp.length ∧
        (generateStats n (LGR.run {} ops).rep).largestSequenceLen = c.cp.length ∧
        ∀ k d, Has (LGR.run {} ops).rep k d → k.length ≤ c.cp.length := by
  have h := (run_wf ops).1
  generalize (LGR.run {} ops).rep = r at h
  have key := fold_largest (best := Stats.largestSequenceLen) (who := Stats.largestSequence)
    (P := fun c => c.isRange = false ∧ c.isSequence = true) (w := fun c => c.cp.length)
    body_largestSequence r.iter
    (fun c _ hp => by have := hp.2; simp only [CharObj.isSequence, decide_eq_true_eq] at this; omega)
    { rules := n } [] ⟨rfl, by simp⟩
  rw [List.nil_append, ← gen_eq] at key
  have hne : ∀ k c, r.lookup k = some c → 0 < k.length := by
    intro k c hc
    cases k with
    | nil => simp at hc
    | cons x k => simp
  have long : ∀ k c, r.lookup k = some c → 1 < k.length →
      c ∈ r.iter ∧ c.isRange = false ∧ c.isSequence = true ∧ c.cp = k := by
    intro k c hc hk
    have hcp := lookup_cp hc
    have hr : c.range = none := by
      cases hr : c.range with
      | none => rfl
      | some p =>
        obtain ⟨x, hx, _⟩ := (lookup_charWF h hc).rangeCp p.1 p.2 hr
        rw [← hcp, hx] at hk; simp at hk
    exact ⟨C26.mem_iter h hc hr, by simp [CharObj.isRange, hr], by simpa [CharObj.isSequence, hcp] using hk,
      hcp⟩
  cases hw : (generateStats n r).largestSequence with
  | none =>
    rw [hw] at key
    refine ⟨key.1, ?_⟩
    intro k c hc
    have h0 := hne k c (lookup_iff.1 hc)
    by_contra hk
    obtain ⟨h1, h2, h3, _⟩ := long k c (lookup_iff.1 hc) (by omega)
    exact key.2 c h1 ⟨h2, h3⟩
  | some c =>
    rw [hw] at key
    obtain ⟨h1, h2, h3, h4⟩ := key
    have hc1 : 1 < c.cp.length := by simpa [CharObj.isSequence] using h3.2
    refine ⟨lookup_iff.2 (C26.iter_mem h h2), hc1, h1, ?_⟩
    intro k d hd
    by_cases hk : 1 < k.length
    · obtain ⟨e1, e2, e3, e4⟩ := long k d (lookup_iff.1 hd) hk
      have := h4 d e1 ⟨e2, e3⟩
      rw [h1] at this
      rw [← e4]
      exact this
    · omega

/-- A character with its variants: the code points of its variant set. -/
def variantSet (c : CharObj) : Set Seq := {s | s = c.cp ∨ ∃ v ∈ c.getVariants, v.cp = s}

/-- **C69** The size of the largest variant set is that of some character with variants, and no
character with variants has a larger one; it is 0 if no character has variants. -/
theorem largest_set (ops : List (Ctx × LGR.Op)) (hops : Along RangeSafe {} ops) (n : Nat) :
    (∀ k c, Has (LGR.run {} ops).rep k c → c.getVariants ≠ [] →
      (variantSet c).ncard ≤ (generateStats n (LGR.run {} ops).rep).largestSet) ∧
    ((generateStats n (LGR.run {} ops).rep).largestSet = 0 ∨
      ∃ k c, Has (LGR.run {} ops).rep k c ∧ c.getVariants ≠ [] ∧
        (generateStats n (LGR.run {} ops).rep).largestSet = (variantSet c).ncard) := by
  have h := (run_wf ops).1
  have hi := C06.intact_history ops hops
  generalize (LGR.run {} ops).rep = r at h hi
  have hset : ∀ c : CharObj, c.getVariants ≠ [] → (variantSet c).ncard = setLen c := by
    intro c hc
    unfold setLen
    rw [if_pos (List.length_pos_iff.2 hc)]
    refine ncard_list _ (List.nodup_dedup _) ?_
    intro s
    simp only [variantSet, Set.mem_setOf_eq, List.mem_dedup, List.mem_append, List.mem_map,
      List.mem_singleton]
    exact or_comm
  have hfold : ∀ (l : List CharObj) (s : Stats),
      (∀ c ∈ l, setLen c ≤ (l.foldl body s).largestSet) ∧
      s.largestSet ≤ (l.foldl body s).largestSet ∧
      ((l.foldl body s).largestSet = s.largestSet ∨ ∃ c ∈ l, (l.foldl body s).largestSet = setLen c) := by
    intro l
    induction l with
    | nil => intro s; simp
    | cons c l ih =>
      intro s
      obtain ⟨h1, h2, h3⟩ := ih (body s c)
      have hb := body_largestSet s c
      rw [List.foldl_cons]
      refine ⟨?_, by omega, ?_⟩
      · intro d hd
        rcases List.mem_cons.1 hd with rfl | hd
        · omega
        · exact h1 d hd
      · rcases h3 with h3 | ⟨d, hd, h3⟩
        · rcases le_total s.largestSet (setLen c) with hle | hle
          · exact .inr ⟨c, by simp, by rw [h3, hb]; omega⟩
          · exact .inl (by rw [h3, hb]; omega)
        · exact .inr ⟨d, by simp [hd], h3⟩
  obtain ⟨h1, _, h3⟩ := hfold r.iter { rules := n }
  rw [← gen_eq] at h1 h3
  constructor
  · intro k c hc hv
    have hl := lookup_iff.1 hc
    have hr : c.range = none := by
      by_contra hr
      exact hv (range_no_variants hi h hl (Option.isSome_iff_ne_none.2 hr))
    rw [hset c hv]
    exact h1 c (C26.mem_iter h hl hr)
  · rcases h3 with h3 | ⟨c, hc, h3⟩
    · exact .inl h3
    · by_cases hv : c.getVariants = []
      · left
        rw [h3]
        have := (setLen_pos c).not.2 (by simpa using hv)
        omega
      · exact .inr ⟨_, c, lookup_iff.2 (C26.iter_mem h hc), hv, by rw [h3, hset c hv]⟩

/-! ### Cases, and what is not counted right -/

/-- The sample of C06 has five entries: a range of three, a sequence, and a code point with a variant. -/
example : Along RangeSafe {} C06.sample ∧ (∀ p ∈ C06.sample, NoForcedDup p.2) ∧
    (generateStats 0 (LGR.run {} C06.sample).rep).codepoints = 5 ∧
    (generateStats 0 (LGR.run {} C06.sample).rep).sequences = 1 ∧
    (generateStats 0 (LGR.run {} C06.sample).rep).ranges = 1 ∧
    (generateStats 0 (LGR.run {} C06.sample).rep).largestSet = 2 ∧
    dget (generateStats 0 (LGR.run {} C06.sample).rep).byTag "t" = some 3 := by
  refine ⟨⟨trivial, .inl (by rfl), trivial, trivial, trivial⟩, ?_, by decide +kernel⟩
  simp [C06.sample, NoForcedDup]

/-- **C69** is violated after a member of a range is deleted: the range still counts in full. -/
theorem deleted_member_counted :
    ∃ ops, (generateStats 0 (LGR.run {} ops).rep).codepoints
      ≠ Set.ncard {k | ∃ c, Has (LGR.run {} ops).rep k c} := by
  refine ⟨[(C06.ctx0, .addRange 97 99 {}), (C06.ctx0, .delCp (.int 98))], ?_⟩
  have h1 : (generateStats 0 (LGR.run {} [(C06.ctx0, .addRange 97 99 {}),
      (C06.ctx0, .delCp (.int 98))]).rep).codepoints = 3 := by decide +kernel
  have hw := (run_wf [(C06.ctx0, .addRange 97 99 {}), (C06.ctx0, .delCp (.int 98))]).1
  have hall : (LGR.run {} [(C06.ctx0, .addRange 97 99 {}), (C06.ctx0, .delCp (.int 98))]).rep.allChars.map
      CharObj.cp = [[97], [99]] := by decide +kernel
  rw [h1, ncard_list [[97], [99]] (by decide)]
  · decide
  · intro k
    rw [← hall, List.mem_map]
    simp only [Set.mem_setOf_eq, lookup_iff]
    constructor
    · rintro ⟨c, hc⟩
      have hk := lookup_cp hc
      exact ⟨c, (mem_allChars hw c).2 (by rw [hk]; exact hc), hk⟩
    · rintro ⟨c, hc, rfl⟩
      exact ⟨c, (mem_allChars hw c).1 hc⟩

/-- **C69** is violated by a tag given twice by force: the code point counts twice. -/
theorem forced_tag_counted_twice :
    ∃ ops, dget (generateStats 0 (LGR.run {} ops).rep).byTag "t" = some 2 ∧
      ∀ k c, Has (LGR.run {} ops).rep k c → k = [97] := by
  refine ⟨[(C06.ctx0, .addCp (.int 97) { tag := ["t", "t"], force := true })], by decide +kernel, ?_⟩
  intro k c hc
  have hw := (run_wf [(C06.ctx0, .addCp (.int 97) { tag := ["t", "t"], force := true })]).1
  have hk := lookup_cp (lookup_iff.1 hc)
  have hall : (LGR.run {} [(C06.ctx0, .addCp (.int 97) { tag := ["t", "t"], force := true })]).rep.allChars.map
      CharObj.cp = [[97]] := by decide +kernel
  have hm : c.cp ∈ [[97]] := by
    rw [← hall]
    exact List.mem_map.2 ⟨c, (mem_allChars hw c).2 (by rw [hk]; exact lookup_iff.1 hc), rfl⟩
  rw [← hk]
  simpa using hm

end Lgr.Props.C69

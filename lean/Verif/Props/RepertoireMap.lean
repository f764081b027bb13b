import Verif.RepLemmas
import Verif.Props.CharVariants
import Mathlib.Data.Multiset.AddSub

/-!
# C01: a repertoire is a finite map under any edit history

The specification is a partial function from code point sequences to entries, with a bag of
declared ranges; every call is a point-wise update.  It mentions no dictionary, no bucket.
-/

namespace Lgr.Props.C01
open Lgr Repertoire

/-- What is recorded for one sequence. -/
structure Entry where
  range : Option (Nat × Nat)
  attrs : Attrs
  vars : C08.Store

/-- Abstract repertoire. -/
structure Abs where
  map : Seq → Option Entry
  ranges : Multiset (Nat × Nat)

def Abs.empty : Abs := ⟨fun _ => none, 0⟩

def setAt (m : Seq → Option Entry) (k : Seq) (o : Option Entry) : Seq → Option Entry :=
  fun x => if x = k then o else m x

/-- Set every single code point `x` with `lo ≤ x < hi`. -/
def setRange (m : Seq → Option Entry) (lo hi : Nat) (o : Option Entry) : Seq → Option Entry :=
  fun k => match k with
    | [x] => if lo ≤ x ∧ x < hi then o else m k
    | _ => m k

/-- Least code point of `f..l` satisfying `p`. -/
def firstIn (f l : Nat) (p : Nat → Bool) : Option Nat := (List.range' f (l + 1 - f)).find? p

/-- Abstract meaning of each call (state afterwards, outcome). -/
noncomputable def specStep (s : Abs) : Op → Abs × Except Err Bool
  | .addChar k a =>
    if k = [] then (s, .error .assertion)
    else if (s.map k).isSome then (s, .error (.charAlreadyExists k))
    else ({ s with map := setAt s.map k (some ⟨none, a, fun _ => none⟩) }, .ok true)
  | .delChar k =>
    if k = [] then (s, .error .assertion)
    else if (s.map k).isSome then ({ s with map := setAt s.map k none }, .ok true)
    else (s, .error (.notInLGR k))
  | .addRange f l a skip =>
    open Classical in
    if ¬ f < l then (s, .error .assertion)
    else if skip = false ∧ ∃ p ∈ s.ranges, (f ≤ p.2 ∧ p.1 ≤ l) ∧ (p.1 ≤ f ∨ l ≤ p.2) then
      (s, .error (.rangeAlreadyExists f l))
    else
      match firstIn f l (fun x => (s.map [x]).isSome) with
      | none =>
        (⟨setRange s.map f (l + 1) (some ⟨some (f, l), a, fun _ => none⟩), s.ranges + {(f, l)}⟩,
          .ok true)
      | some x =>
        (⟨setRange s.map f x (some ⟨some (f, l), a, fun _ => none⟩), s.ranges⟩,
          .error (.charAlreadyExists [x]))
  | .delRange f l =>
    if ¬ f < l then (s, .error .assertion)
    else if (f, l) ∉ s.ranges then (s, .error (.notInLGR [f]))
    else
      match firstIn f l (fun x => (s.map [x]).isNone) with
      | none => (⟨setRange s.map f (l + 1) none, s.ranges.erase (f, l)⟩, .ok true)
      | some x => (⟨setRange s.map f x none, s.ranges⟩, .error (.notInLGR [x]))
  | .addVariant k v => editVar s k (.add v)
  | .delVariant k vcp w n => editVar s k (.del vcp w n)
where
  /-- A variant edit acts on the entry's variant store as specified in C08. -/
  editVar (s : Abs) (k : Seq) (op : CharObj.VarOp) : Abs × Except Err Bool :=
    if k = [] then (s, .error .assertion)
    else
      match s.map k with
      | none => (s, .error (.notInLGR k))
      | some e =>
        if e.range.isSome then (s, .error (.format "RANGE_NO_CHILD"))
        else
          ({ s with map := setAt s.map k (some { e with vars := (C08.specStep k e.vars op).1 }) },
            (C08.specStep k e.vars op).2)

/-- Outcomes prescribed for a history. -/
noncomputable def specOutcomes (s : Abs) : List Op → List (Except Err Bool)
  | [] => []
  | op :: ops => (specStep s op).2 :: specOutcomes (specStep s op).1 ops

/-- The observable entry of a character. -/
def entry (c : CharObj) : Entry := ⟨c.range, c.attrs, C08.view c⟩

/-- What `get_char` tells of a repertoire, for every sequence, and its list of ranges. -/
def abs (r : Repertoire) : Abs :=
  ⟨fun k => match r.getChar k with
    | .ok c => some (entry c)
    | .error _ => none, (r.ranges : Multiset (Nat × Nat))⟩

/-! ## Helper lemmas -/

theorem abs_map (r : Repertoire) (k : Seq) : (abs r).map k = (r.lookup k).map entry := by
  simp only [abs]
  rw [getChar_eq]
  cases k with
  | nil => rfl
  | cons i t => cases r.lookup (i :: t) <;> rfl

theorem abs_isSome (r : Repertoire) (k : Seq) : ((abs r).map k).isSome = (r.lookup k).isSome := by
  rw [abs_map, Option.isSome_map]

theorem abs_isNone (r : Repertoire) (k : Seq) : ((abs r).map k).isNone = (r.lookup k).isNone := by
  rw [abs_map, Option.isNone_map]

theorem abs_ext {s t : Abs} (h1 : ∀ k, s.map k = t.map k) (h2 : s.ranges = t.ranges) : s = t := by
  cases s; cases t; simp only [Abs.mk.injEq]; exact ⟨funext h1, h2⟩

theorem find_split {l pre post : List Nat} {x : Nat} {p : Nat → Bool} (h : l = pre ++ x :: post)
    (h1 : ∀ y ∈ pre, p y = false) (h2 : p x = true) : l.find? p = some x := by
  subst h
  rw [List.find?_append]
  have : pre.find? p = none := by
    rw [List.find?_eq_none]; intro y hy; simp [h1 y hy]
  simp [this, h2]

theorem setRange_apply (m : Seq → Option Entry) (lo hi : Nat) (o) (k : Seq) :
    setRange m lo hi o k =
      open Classical in if ∃ x, (lo ≤ x ∧ x < hi) ∧ k = [x] then o else m k := by
  unfold setRange
  split
  · rename_i x
    by_cases h : lo ≤ x ∧ x < hi
    · rw [if_pos h, if_pos ⟨x, h, rfl⟩]
    · rw [if_neg h, if_neg]
      rintro ⟨y, hy, he⟩; injection he with he; subst he; exact h hy
  · rename_i hne
    rw [if_neg]
    rintro ⟨y, _, he⟩; exact hne y he

theorem rangeChar_entry (f l a x) :
    entry (rangeChar f l a x) = ⟨some (f, l), a, fun _ => none⟩ := by
  simp only [entry, rangeChar, Entry.mk.injEq, true_and]
  funext k; simp [C08.view, CharObj.getVariants, sortAsc]

theorem varStep_keeps (c : CharObj) (op : CharObj.VarOp) :
    (c.varStep op).1.cp = c.cp ∧ (c.varStep op).1.range = c.range ∧
    (c.varStep op).1.attrs = c.attrs := by
  refine ⟨(C08.varStep_cp c op).1, (C08.varStep_cp c op).2, ?_⟩
  cases op with
  | add v =>
    simp only [CharObj.varStep, CharObj.addVariant]
    split <;> rename_i he <;> simp at he ⊢
    split at he
    · simp at he
    split at he
    · simp at he
    split at he
    · split at he
      · simp at he
      · injection he with he; subst he; simp
    · injection he with he; subst he; simp
  | del k w n =>
    simp only [CharObj.varStep, CharObj.delVariant]
    split <;> rename_i he <;> simp at he ⊢
    split at he
    · simp at he
    split at he
    · simp at he
    split at he
    · split at he
      · split at he <;> · injection he with he; injection he with he _; subst he; simp
      · injection he with he; injection he with he _; subst he; simp
    · injection he with he; injection he with he _; subst he; simp

/-- A variant call is a `varStep` on the stored character. -/
def varOpOf : Op → Option (Seq × CharObj.VarOp)
  | .addVariant k v => some (k, .add v)
  | .delVariant k vcp w n => some (k, .del vcp w n)
  | _ => none

theorem putChar_self {r : Repertoire} {c : CharObj} (h : r.lookup c.cp = some c)
    (hwf : WF r) : ∀ k, (r.putChar c).lookup k = r.lookup k := by
  intro k
  rw [lookup_putChar (by simp [h])]
  split
  · rename_i hk; rw [hk, h]
  · rfl

theorem step_var {r : Repertoire} (hwf : WF r) {op : Op} {k : Seq} {vop : CharObj.VarOp}
    (ho : varOpOf op = some (k, vop)) :
    WF (r.step op).1 ∧ abs (r.step op).1 = (specStep.editVar (abs r) k vop).1 ∧
      (r.step op).2 = (specStep.editVar (abs r) k vop).2 := by
  unfold specStep.editVar
  by_cases hk : k = []
  · subst hk
    rw [if_pos rfl]
    cases op <;> simp only [varOpOf, Option.some.injEq, Prod.mk.injEq, reduceCtorEq] at ho <;>
      obtain ⟨rfl, rfl⟩ := ho <;>
      simp [step, addVariant, delVariant, getChar, hwf]
  rw [if_neg hk]
  cases hl : r.lookup k with
  | none =>
    have hg : r.getChar k = .error (.notInLGR k) := (getChar_error hk).2 ⟨hl, rfl⟩
    have hm : (abs r).map k = none := by rw [abs_map, hl]; rfl
    simp only [hm]
    cases op <;> simp only [varOpOf, Option.some.injEq, Prod.mk.injEq, reduceCtorEq] at ho <;>
      obtain ⟨rfl, rfl⟩ := ho <;>
      simp [step, addVariant, delVariant, hg, hwf]
  | some c =>
    have hg : r.getChar k = .ok c := getChar_ok.2 hl
    have hm : (abs r).map k = some (entry c) := by rw [abs_map, hl]; rfl
    have hc : c.cp = k := lookup_cp hl
    have hcw := lookup_charWF hwf hl
    simp only [hm]
    by_cases hr : c.range.isSome
    · have h1 := C08.range_rejects_variants c hr vop
      rw [if_pos (by simpa [entry] using hr)]
      cases op <;> simp only [varOpOf, Option.some.injEq, Prod.mk.injEq, reduceCtorEq] at ho <;>
        obtain ⟨rfl, rfl⟩ := ho <;>
        simp [step, addVariant, delVariant, hg, hwf, CharObj.addVariant, CharObj.delVariant, hr]
    · rw [if_neg (by simpa [entry] using hr)]
      have hrn : c.range = none := by simpa using hr
      obtain ⟨s1, s2⟩ := C08.step_refines hcw.varWF hrn vop
      obtain ⟨k1, k2, k3⟩ := varStep_keeps c vop
      have hw1 := CharObj.varStep_wf hcw.varWF vop
      have hcw' : CharWF (c.varStep vop).1 :=
        ⟨hw1, by intro f l h; rw [k2, hrn] at h; simp at h⟩
      -- the concrete step, up to observation
      have key : (∃ r', (r.step op).1 = r' ∧ WF r' ∧ r'.ranges = r.ranges ∧
          ∀ x, r'.lookup x = if x = k then some (c.varStep vop).1 else r.lookup x) ∧
          (r.step op).2 = (c.varStep vop).2 := by
        have hput : WF (r.putChar (c.varStep vop).1) ∧
            (r.putChar (c.varStep vop).1).ranges = r.ranges ∧
            ∀ x, (r.putChar (c.varStep vop).1).lookup x =
              if x = k then some (c.varStep vop).1 else r.lookup x := by
          refine ⟨putChar_wf hwf hcw', putChar_ranges _ _, ?_⟩
          intro x
          rw [lookup_putChar (by rw [k1, hc, hl]; rfl), k1, hc]
        cases op with
        | addVariant k' v =>
          simp only [varOpOf, Option.some.injEq, Prod.mk.injEq] at ho
          obtain ⟨rfl, rfl⟩ := ho
          simp only [step, addVariant, hg, CharObj.varStep] at hput ⊢
          cases hv : c.addVariant v with
          | ok c' => simp only [hv] at hput ⊢; exact ⟨⟨_, rfl, hput⟩, by trivial⟩
          | error e =>
            simp only
            refine ⟨⟨_, rfl, hwf, rfl, ?_⟩, by trivial⟩
            intro x; split
            · rename_i hx; rw [hx, hl]
            · rfl
        | delVariant k' v w n =>
          simp only [varOpOf, Option.some.injEq, Prod.mk.injEq] at ho
          obtain ⟨rfl, rfl⟩ := ho
          simp only [step, delVariant, hg, CharObj.varStep] at hput ⊢
          cases hv : c.delVariant v w n with
          | ok p => obtain ⟨c', b⟩ := p; simp only [hv] at hput ⊢; exact ⟨⟨_, rfl, hput⟩, by trivial⟩
          | error e =>
            simp only
            refine ⟨⟨_, rfl, hwf, rfl, ?_⟩, by trivial⟩
            intro x; split
            · rename_i hx; rw [hx, hl]
            · rfl
        | addChar | delChar | addRange | delRange => simp [varOpOf] at ho
      obtain ⟨⟨r', e1, e2, e3, e4⟩, e5⟩ := key
      rw [e1, e5]
      refine ⟨e2, ?_, ?_⟩
      · apply abs_ext
        · intro x
          rw [abs_map, e4]
          simp only [setAt]
          split
          · simp only [Option.map_some, Option.some.injEq, entry]
            rw [k2, k3, s1, hc]
          · rw [abs_map]
        · simp [abs, e3]
      · rw [s2, hc]; rfl

theorem step_refines {r : Repertoire} (hwf : WF r) (op : Op) :
    WF (r.step op).1 ∧ abs (r.step op).1 = (specStep (abs r) op).1 ∧
      (r.step op).2 = (specStep (abs r) op).2 := by
  cases op with
  | addVariant k v => simpa only [specStep] using step_var hwf (op := .addVariant k v) rfl
  | delVariant k v w n => simpa only [specStep] using step_var hwf (op := .delVariant k v w n) rfl
  | addChar k a =>
    simp only [step, addChar, specStep, abs_isSome]
    by_cases hk : k = []
    · simp [hk, hwf]
    simp only [if_neg hk]
    have hcw : CharWF { cp := k, attrs := a } := ⟨CharObj.varWF_mk, by simp⟩
    cases he : r.addCharObj { cp := k, attrs := a } with
    | ok r' =>
      have hnone := (addCharObj_ok_iff (c := { cp := k, attrs := a }) hk).1 ⟨r', he⟩
      simp only at hnone
      simp only [hnone, Option.isSome_none, Bool.false_eq_true, if_false]
      refine ⟨addCharObj_wf hwf hcw he, ?_, by trivial⟩
      apply abs_ext
      · intro x
        rw [abs_map, lookup_addCharObj he]
        simp only [setAt]
        split
        · simp only [Option.map_some, entry, Option.some.injEq, Entry.mk.injEq, true_and]
          funext k; simp [C08.view, CharObj.getVariants, sortAsc]
        · rw [abs_map]
      · obtain ⟨_, _, _, h, _⟩ := addCharObj_form he
        simp [abs, h]
    | error e =>
      obtain ⟨h1, h2⟩ := addCharObj_error (by simpa using hk) he
      simp only at h1
      simp [h1, h2, hwf]
  | delChar k =>
    simp only [step, delChar, specStep, abs_isSome]
    by_cases hk : k = []
    · simp [hk, hwf]
    simp only [if_neg hk]
    cases he : r.delCharObj k with
    | some r' =>
      have hs : (r.lookup k).isSome := delCharObj_isSome.1 (by simp [he])
      simp only [hs, if_true]
      refine ⟨delCharObj_wf hwf he, ?_, by trivial⟩
      apply abs_ext
      · intro x
        rw [abs_map, lookup_delCharObj hwf he]
        simp only [setAt]
        split
        · rfl
        · rw [abs_map]
      · obtain ⟨_, _, _, h, _⟩ := delCharObj_form hwf he
        simp [abs, h]
    | none =>
      have hs : (r.lookup k).isSome = false := by
        have := delCharObj_isSome (r := r) (k := k)
        rw [he] at this; simpa using this
      simp [hs, hwf]
  | addRange f l a skip =>
    simp only [step, addRange, specStep]
    by_cases hfl : f < l
    swap
    · simp [hfl, hwf]
    simp only [hfl, not_true, if_false]
    -- the repertoire after the overlap check
    obtain ⟨r1, hr1⟩ : ∃ r1, r1 = (if skip then (r, false) else r.checkRangeOverlap f l).1 := ⟨_, rfl⟩
    have hov : ((if skip then (r, false) else r.checkRangeOverlap f l).2 = true) ↔
        (skip = false ∧ ∃ p ∈ (abs r).ranges, (f ≤ p.2 ∧ p.1 ≤ l) ∧ (p.1 ≤ f ∨ l ≤ p.2)) := by
      cases skip with
      | true => simp
      | false =>
        simp only [Bool.false_eq_true, if_false, checkRangeOverlap, overlapLoop_iff, true_and, abs,
          Multiset.mem_coe]
        constructor
        · rintro ⟨p, hp, h⟩; exact ⟨p, (sortRanges_perm _).mem_iff.1 hp, h⟩
        · rintro ⟨p, hp, h⟩; exact ⟨p, (sortRanges_perm _).mem_iff.2 hp, h⟩
    have hlk : ∀ k, r1.lookup k = r.lookup k := by
      intro k; rw [hr1]; cases skip <;> simp [checkRangeOverlap]
    have hwf1 : WF r1 := by
      rw [hr1]; cases skip
      · exact wf_ranges hwf _
      · exact hwf
    have hrs : (r1.ranges : Multiset (Nat × Nat)) = (r.ranges : Multiset (Nat × Nat)) := by
      rw [hr1]; cases skip
      · simp only [Bool.false_eq_true, if_false, checkRangeOverlap]
        exact Multiset.coe_eq_coe.2 (sortRanges_perm _)
      · rfl
    have habs : abs r1 = abs r := abs_ext (fun k => by rw [abs_map, abs_map, hlk]) hrs
    by_cases ho : (if skip then (r, false) else r.checkRangeOverlap f l).2 = true
    · rw [if_pos (hov.1 ho)]
      simp only [ho, if_true, ← hr1]
      exact ⟨hwf1, habs, by trivial⟩
    · rw [if_neg (fun h => ho (hov.2 h))]
      simp only [ho, if_false, ← hr1, Bool.false_eq_true]
      obtain ⟨w1, w2, w3⟩ := addRangeLoop_spec (f := f) (l := l) (a := a) (cpRange f l)
        (fun x hx => mem_cpRange.1 hx) (cpRange_nodup f l) r1 hwf1
      generalize addRangeLoop f l a r1 (cpRange f l) = res at w1 w2 w3
      obtain ⟨r2, out⟩ := res
      simp only at w1 w2 w3
      rcases w3 with ⟨j1, j2, j3⟩ | ⟨pre, x, post, j1, j2, j3, j4, j5⟩
      · subst j1
        have hf : firstIn f l (fun x => ((abs r).map [x]).isSome) = none := by
          unfold firstIn
          rw [List.find?_eq_none]
          intro x hx
          have := j2 x hx
          rw [abs_isSome, ← hlk, this]; simp
        simp only [hf]
        refine ⟨wf_ranges w1 _, ?_, by trivial⟩
        apply abs_ext
        · intro k
          rw [abs_map, lookup_ranges, j3, hlk]
          simp only [setRange_apply]
          by_cases hx : ∃ x ∈ cpRange f l, k = [x]
          · rw [if_pos hx, if_pos]
            · simp [rangeChar_entry]
            · obtain ⟨x, hx, hk⟩ := hx
              have := mem_cpRange.1 hx
              exact ⟨x, ⟨this.1, by omega⟩, hk⟩
          · rw [if_neg hx, if_neg, abs_map]
            rintro ⟨x, h, hk⟩
            exact hx ⟨x, mem_cpRange.2 ⟨h.1, by omega⟩, hk⟩
        · simp only [abs, w2]
          rw [← Multiset.coe_add, hrs]; rfl
      · subst j3
        have hf : firstIn f l (fun x => ((abs r).map [x]).isSome) = some x := by
          unfold firstIn
          refine find_split j1 ?_ ?_
          · intro y hy; rw [abs_isSome, ← hlk, j4 y hy]; rfl
          · rw [abs_isSome, ← hlk]; exact j2
        simp only [hf]
        refine ⟨w1, ?_, by trivial⟩
        apply abs_ext
        · intro k
          rw [abs_map, j5, hlk]
          simp only [setRange_apply]
          have hpre := cpRange_split j1
          by_cases hx : ∃ x ∈ pre, k = [x]
          · rw [if_pos hx, if_pos]
            · simp [rangeChar_entry]
            · obtain ⟨y, hy, hk⟩ := hx
              exact ⟨y, (hpre y).1 hy, hk⟩
          · rw [if_neg hx, if_neg, abs_map]
            rintro ⟨y, h, hk⟩
            exact hx ⟨y, (hpre y).2 h, hk⟩
        · simp only [abs, w2]; exact hrs
  | delRange f l =>
    simp only [step, delRange, specStep]
    by_cases hfl : f < l
    swap
    · simp [hfl, hwf]
    simp only [hfl, not_true, if_false]
    by_cases hin : (f, l) ∈ r.ranges
    swap
    · simp [hin, abs, hwf]
    have hin' : (f, l) ∈ (abs r).ranges := by simpa [abs] using hin
    simp only [hin, hin', not_true, if_false]
    obtain ⟨w1, w2, w3⟩ := delRangeLoop_spec (cpRange f l) (cpRange_nodup f l) r hwf
    generalize delRangeLoop r (cpRange f l) = res at w1 w2 w3
    obtain ⟨r2, out⟩ := res
    simp only at w1 w2 w3
    rcases w3 with ⟨j1, j2, j3⟩ | ⟨pre, x, post, j1, j2, j3, j4, j5⟩
    · subst j1
      have hf : firstIn f l (fun x => ((abs r).map [x]).isNone) = none := by
        unfold firstIn
        rw [List.find?_eq_none]
        intro x hx
        have := j2 x hx
        rw [abs_isNone]; rw [Option.isSome_iff_ne_none] at this; simpa using this
      simp only [hf]
      refine ⟨wf_ranges w1 _, ?_, by trivial⟩
      apply abs_ext
      · intro k
        rw [abs_map, lookup_ranges, j3]
        simp only [setRange_apply]
        by_cases hx : ∃ x ∈ cpRange f l, k = [x]
        · rw [if_pos hx, if_pos]
          · simp
          · obtain ⟨x, hx, hk⟩ := hx
            have := mem_cpRange.1 hx
            exact ⟨x, ⟨this.1, by omega⟩, hk⟩
        · rw [if_neg hx, if_neg, abs_map]
          rintro ⟨x, h, hk⟩
          exact hx ⟨x, mem_cpRange.2 ⟨h.1, by omega⟩, hk⟩
      · simp only [abs, w2]; rw [Multiset.coe_erase]; congr 2; exact lawful_beq_subsingleton _ _
    · subst j3
      have hf : firstIn f l (fun x => ((abs r).map [x]).isNone) = some x := by
        unfold firstIn
        refine find_split j1 ?_ ?_
        · intro y hy; rw [abs_isNone]; simpa using j4 y hy
        · rw [abs_isNone, j2]; rfl
      simp only [hf]
      refine ⟨w1, ?_, by trivial⟩
      apply abs_ext
      · intro k
        rw [abs_map, j5]
        simp only [setRange_apply]
        have hpre := cpRange_split j1
        by_cases hx : ∃ x ∈ pre, k = [x]
        · rw [if_pos hx, if_pos]
          · simp
          · obtain ⟨y, hy, hk⟩ := hx
            exact ⟨y, (hpre y).1 hy, hk⟩
        · rw [if_neg hx, if_neg, abs_map]
          rintro ⟨y, h, hk⟩
          exact hx ⟨y, (hpre y).2 h, hk⟩
      · simp only [abs, w2]

/-! ## The property -/

theorem run_refines_from (ops : List Op) (r : Repertoire) (h : WF r) :
    WF (r.run ops) ∧ abs (r.run ops) = ops.foldl (fun s op => (specStep s op).1) (abs r) ∧
      r.outcomes ops = specOutcomes (abs r) ops := by
  induction ops generalizing r with
  | nil => exact ⟨h, rfl, rfl⟩
  | cons op ops ih =>
    obtain ⟨h1, h2, h3⟩ := step_refines h op
    obtain ⟨i1, i2, i3⟩ := ih _ h1
    refine ⟨i1, ?_, ?_⟩
    · rw [h2] at i2; exact i2
    · simp only [outcomes, specOutcomes]; rw [i3, h2, h3]

theorem abs_empty : abs {} = Abs.empty := by
  apply abs_ext
  · intro k; rw [abs_map]; cases k <;> simp [lookup, bucket, dget, Abs.empty]
  · rfl

theorem wf_run (ops : List Op) : WF (run {} ops) := (run_refines_from ops {} wf_empty).1

/-- **C01** Any history of calls acts on what `get_char` answers exactly as on a finite map,
and each call returns or raises as the map prescribes. -/
theorem repertoire_refines_map (ops : List Op) :
    abs (run {} ops) = ops.foldl (fun s op => (specStep s op).1) Abs.empty ∧
      outcomes {} ops = specOutcomes Abs.empty ops := by
  have := run_refines_from ops {} wf_empty
  rw [abs_empty] at this; exact this.2

/-- **C01** `cp in repertoire` agrees with `get_char`, and raises only on the empty sequence. -/
theorem membership_agrees (ops : List Op) (k : Seq) :
    (run {} ops).contains k =
      if k = [] then .error .indexError else .ok ((abs (run {} ops)).map k).isSome := by
  cases k with
  | nil => rfl
  | cons i t =>
    simp only [contains, reduceCtorEq, if_false, abs_isSome]
    congr 1
    rw [Bool.eq_iff_iff]; exact hasCp_iff _ _

/-- **C01** Entries are returned under their own sequence. -/
theorem get_char_own_cp (ops : List Op) (k : Seq) (c : CharObj)
    (h : (run {} ops).getChar k = .ok c) : c.cp = k := lookup_cp (getChar_ok.1 h)

/-- **C01** `len` is the number of sequences in the map: the keys can be listed without
repetition and `len` is the length of that list. -/
theorem len_counts_entries (ops : List Op) :
    ∃ ks : List Seq, ks.Nodup ∧ (∀ k, k ∈ ks ↔ ((abs (run {} ops)).map k).isSome) ∧
      (run {} ops).len = ks.length := by
  have h := wf_run ops
  refine ⟨(run {} ops).allChars.map CharObj.cp, allChars_nodup h, ?_, by rw [len_eq]; simp⟩
  intro k
  rw [abs_isSome, List.mem_map, Option.isSome_iff_exists]
  constructor
  · rintro ⟨c, hc, rfl⟩; exact ⟨c, (mem_allChars h c).1 hc⟩
  · rintro ⟨c, hc⟩
    have := lookup_cp hc
    exact ⟨c, (mem_allChars h c).2 (by rw [this]; exact hc), this⟩

/-- **C01** `get_chars_from_prefix(cp)` raises iff no entry starts with `cp`; otherwise it
lists each entry starting with `cp` exactly once, longest first. -/
theorem prefix_lookup_exact (ops : List Op) (cp : Nat) :
    match (run {} ops).charsFromPrefix cp with
    | .error e => e = .notInLGR [cp] ∧ ∀ t, (abs (run {} ops)).map (cp :: t) = none
    | .ok cs => cs ≠ [] ∧ (cs.map CharObj.cp).Nodup ∧
        (cs.map (fun c => c.cp.length)).Pairwise (· ≥ ·) ∧
        ∀ c, c ∈ cs ↔ (∃ t, c.cp = cp :: t) ∧ (run {} ops).getChar c.cp = .ok c := by
  have h := wf_run ops
  generalize run {} ops = r at h
  unfold charsFromPrefix
  cases hd : dget r.dict cp with
  | none =>
    refine ⟨rfl, ?_⟩
    intro t
    rw [abs_map]; simp [lookup, bucket, hd]
  | some l =>
    simp only [Bool.false_eq_true, if_false]
    have hp := sortDesc_perm CharObj.len l
    have hm := mem_of_dget hd
    have hb : r.bucket cp = l := by simp [bucket, hd]
    refine ⟨?_, ?_, ?_, ?_⟩
    · intro hn; rw [hn] at hp; exact h.nonempty _ hm hp.symm.eq_nil
    · exact (hp.map _).nodup_iff.2 (h.uniq _ hm)
    · rw [List.pairwise_map]; exact sortDesc_sorted CharObj.len l
    · intro c
      rw [hp.mem_iff, getChar_ok, lookup_eq_some h]
      constructor
      · intro hc
        obtain ⟨t, ht⟩ := h.filed _ hm c hc
        exact ⟨⟨t, ht⟩, cp, t, ht, by rw [hb]; exact hc, rfl⟩
      · rintro ⟨⟨t, ht⟩, i, s, hs, hc, _⟩
        rw [ht] at hs; injection hs with hs _; subst hs
        rw [← hb]; exact hc

/-! Non-vacuity: a history with failures, ranges and variants. -/
example : outcomes {}
    [.addChar [97] {}, .addChar [97] {}, .addChar [97, 98] {}, .addRange 100 102 {} false,
     .addVariant [97] { cp := [98] }, .addVariant [101] { cp := [98] }, .delChar [101],
     .delRange 100 102, .addRange 95 98 {} false, .delVariant [97] [98] none none] =
    [.ok true, .error (.charAlreadyExists [97]), .ok true, .ok true, .ok true,
     .error (.format "RANGE_NO_CHILD"), .ok true, .error (.notInLGR [101]),
     .error (.charAlreadyExists [97]), .ok true] := by rfl
example : (run {} [.addChar [97] {}, .addChar [97, 98] {}, .addRange 100 102 {} false,
    .delChar [97]]).len = 4 := by rfl

end Lgr.Props.C01

import Verif.Props.LgrState
import Verif.Disposition

/-!
# C06: expanding ranges preserves the meaning of the LGR

The first half shows what `get_chars_from_prefix` depends on: the order of the sequences in a bucket
and the single character of that code point. The second half carries equality of
`get_chars_from_prefix`, up to "is it a range character", through every label function.
-/

namespace Lgr.Props
open Lgr Repertoire

namespace C06

section sort
variable {α κ : Type} [LinearOrder κ] (key : α → κ)

theorem orderedInsert_last (x : α) (l : List α) (h : ∀ y ∈ l, key x < key y) :
    l.orderedInsert (fun a b => key b ≤ key a) x = l ++ [x] := by
  induction l with
  | nil => rfl
  | cons y l ih =>
    have hy := h y (by simp)
    rw [List.orderedInsert_of_not_le _ (r := fun a b => key b ≤ key a) (not_le.2 hy), ih (fun z hz => h z (by simp [hz]))]
    rfl

theorem orderedInsert_append (a x : α) (l : List α) (h : key x ≤ key a) :
    (l ++ [x]).orderedInsert (fun a b => key b ≤ key a) a
      = l.orderedInsert (fun a b => key b ≤ key a) a ++ [x] := by
  induction l with
  | nil => simp [List.orderedInsert, h]
  | cons y l ih =>
    by_cases hy : key y ≤ key a
    · simp [List.orderedInsert, hy]
    · rw [List.cons_append, List.orderedInsert_of_not_le (r := fun a b => key b ≤ key a) _ hy, ih, List.orderedInsert_of_not_le (r := fun a b => key b ≤ key a) _ hy]
      rfl

/-- A strictly smallest element goes last, wherever it was. -/
theorem sortDesc_last (l₁ l₂ : List α) (x : α) (h : ∀ y ∈ l₁ ++ l₂, key x < key y) :
    sortDesc key (l₁ ++ x :: l₂) = sortDesc key (l₁ ++ l₂) ++ [x] := by
  unfold sortDesc
  induction l₁ with
  | nil =>
    simp only [List.nil_append, List.insertionSort_cons]
    apply orderedInsert_last
    intro y hy
    exact h y (by simpa using hy)
  | cons a l₁ ih =>
    simp only [List.cons_append, List.insertionSort_cons]
    rw [ih (fun y hy => h y (by simp only [List.cons_append, List.mem_cons]; exact .inr hy))]
    exact orderedInsert_append key a x _ (le_of_lt (h a (by simp)))

end sort

/-- The characters of a bucket that are sequences, in order. -/
def longs (r : Repertoire) (i : Nat) : List CharObj := (r.bucket i).filter CharObj.isSequence

theorem sort_bucket (i : Nat) (L : List CharObj) (hn : (L.map CharObj.cp).Nodup)
    (hf : ∀ c ∈ L, ∃ t, c.cp = i :: t) :
    sortDesc CharObj.len L = sortDesc CharObj.len (L.filter CharObj.isSequence) ++
      (L.find? (fun c => c.cp == [i])).toList := by
  cases hfd : L.find? (fun c => c.cp == [i]) with
  | none =>
    have : L.filter CharObj.isSequence = L := by
      rw [List.filter_eq_self]
      intro c hc
      obtain ⟨t, ht⟩ := hf c hc
      have := List.find?_eq_none.1 hfd c hc
      cases t with
      | nil => simp [ht] at this
      | cons a t => simp [CharObj.isSequence, ht]
    rw [this]; simp
  | some c =>
    obtain ⟨hcp, l₁, l₂, rfl, _⟩ := List.find?_eq_some_iff_append.1 hfd
    have hcp : c.cp = [i] := by simpa using hcp
    have hlong : ∀ y ∈ l₁ ++ l₂, y.isSequence = true := by
      intro y hy
      have hyL : y ∈ l₁ ++ c :: l₂ := by
        simp only [List.mem_append, List.mem_cons] at hy ⊢
        rcases hy with h | h
        · exact .inl h
        · exact .inr (.inr h)
      obtain ⟨t, ht⟩ := hf y hyL
      cases t with
      | cons a t => simp [CharObj.isSequence, ht]
      | nil =>
        exfalso
        have hp : ((c :: (l₁ ++ l₂)).map CharObj.cp).Nodup :=
          ((List.perm_middle).map _).nodup_iff.1 hn
        simp only [List.map_cons, List.nodup_cons] at hp
        exact hp.1 (List.mem_map.2 ⟨y, hy, by rw [ht, hcp]⟩)
    rw [sortDesc_last]
    · have h1 : (l₁ ++ c :: l₂).filter CharObj.isSequence = l₁ ++ l₂ := by
        rw [List.filter_append, List.filter_cons]
        have : c.isSequence = false := by simp [CharObj.isSequence, hcp]
        simp only [this]
        rw [if_neg (by simp), ← List.filter_append, List.filter_eq_self]
        exact hlong
      rw [h1]; rfl
    · intro y hy
      have := hlong y hy
      simp only [CharObj.isSequence, decide_eq_true_eq] at this
      simp only [CharObj.len, hcp]; simpa using this

/-- `get_chars_from_prefix` in terms of the sequences and of the single character. -/
theorem charsFromPrefix_form {r : Repertoire} (h : WF r) (i : Nat) (b : Bool) :
    r.charsFromPrefix i b =
      if longs r i = [] ∧ r.lookup [i] = none then .error (.notInLGR [i])
      else .ok (sortDesc CharObj.len ((longs r i).filter (fun c => !b || c.hasVariant)) ++
        ((r.lookup [i]).filter (fun c => !b || c.hasVariant)).toList) := by
  unfold charsFromPrefix
  cases hd : dget r.dict i with
  | none => simp [longs, lookup, bucket, hd]
  | some L =>
    have hbk : r.bucket i = L := by simp [bucket, hd]
    have hn := h.uniq _ (mem_of_dget hd)
    have hf := h.filed _ (mem_of_dget hd)
    have hne := h.nonempty _ (mem_of_dget hd)
    simp only at hn hf hne
    have hl : longs r i = L.filter CharObj.isSequence := by rw [longs, hbk]
    have hk : r.lookup [i] = L.find? (fun c => c.cp == [i]) := by rw [lookup, hbk]
    rw [if_neg]
    · congr 1
      have key : ∀ p : CharObj → Bool,
          sortDesc CharObj.len (L.filter p) =
            sortDesc CharObj.len ((longs r i).filter p) ++ ((r.lookup [i]).filter p).toList := by
        intro p
        rw [sort_bucket i (L.filter p) (hn.sublist (List.filter_sublist.map _))
          (fun c hc => hf c (List.mem_filter.1 hc).1), hl, hk]
        congr 1
        · rw [List.filter_filter, List.filter_filter]
          congr 2; funext c; exact Bool.and_comm _ _
        · congr 1
          cases hfd : L.find? (fun c => c.cp == [i]) with
          | none =>
            simp only [Option.filter_none, List.find?_eq_none]
            intro c hc
            exact List.find?_eq_none.1 hfd c (List.mem_filter.1 hc).1
          | some c =>
            have hcm := List.mem_of_find?_eq_some hfd
            have hcc := List.find?_some hfd
            by_cases hp : p c = true
            · rw [Option.filter_some, if_pos hp]
              rw [find_cp_iff (hn.sublist (List.filter_sublist.map _))]
              exact ⟨List.mem_filter.2 ⟨hcm, hp⟩, by simpa using hcc⟩
            · rw [Option.filter_some, if_neg hp]
              rw [List.find?_eq_none]
              intro d hdm hdc
              obtain ⟨hdL, hdp⟩ := List.mem_filter.1 hdm
              have : L.find? (fun c => c.cp == [i]) = some d :=
                (find_cp_iff hn).2 ⟨hdL, by simpa using hdc⟩
              rw [hfd] at this
              cases this
              exact hp hdp
      cases b with
      | true => simpa using key CharObj.hasVariant
      | false =>
        have := key (fun _ => true)
        simpa using this
    · rintro ⟨h1, h2⟩
      obtain ⟨c, hc⟩ := List.exists_mem_of_ne_nil _ hne
      obtain ⟨t, ht⟩ := hf c hc
      rw [hl, List.filter_eq_nil_iff] at h1
      rw [hk, List.find?_eq_none] at h2
      cases t with
      | nil => exact h2 c hc (by simp [ht])
      | cons a t => exact h1 c hc (by simp [CharObj.isSequence, ht])

/-! ### Effect of the edits on the sequences of a bucket -/

theorem removeCp_longs (i : Nat) (L : List CharObj) :
    (removeCp [i] L).filter CharObj.isSequence = L.filter CharObj.isSequence := by
  induction L with
  | nil => rfl
  | cons c L ih =>
    unfold removeCp
    split
    · rename_i hc
      simp [List.filter_cons, CharObj.isSequence, hc]
    · simp [List.filter_cons, ih]

theorem longs_del {r r' : Repertoire} (h : WF r) {x : Nat} (he : r.delCharObj [x] = some r') (j : Nat) :
    longs r' j = longs r j := by
  obtain ⟨i, t, hk, _, _, hb, _⟩ := delCharObj_form h he
  cases hk
  unfold longs
  rw [hb]
  split
  · rename_i hj; subst hj; exact removeCp_longs _ _
  · rfl

theorem longs_add {r r' : Repertoire} {c : CharObj} {x : Nat} (hc : c.cp = [x])
    (he : r.addCharObj c = .ok r') (j : Nat) : longs r' j = longs r j := by
  obtain ⟨i, t, hk, _, hd, _⟩ := addCharObj_form he
  rw [hc] at hk; cases hk
  unfold longs
  have : r'.bucket j = if x = j then r.bucket x ++ [c] else r.bucket j := by
    unfold bucket; rw [hd, dget_dset]; split <;> rfl
  rw [this]
  split
  · rename_i hj; subst hj; simp [CharObj.isSequence, hc]
  · rfl

theorem longs_delRangeLoop (cps : List Nat) (r : Repertoire) (h : WF r) (j : Nat) :
    longs (delRangeLoop r cps).1 j = longs r j := by
  induction cps generalizing r with
  | nil => rfl
  | cons c cps ih =>
    unfold delRangeLoop
    cases he : r.delCharObj [c] with
    | none => rfl
    | some r' => simp only; rw [ih r' (delCharObj_wf h he), longs_del h he]

theorem single_charWF (x : Nat) (a : Attrs) : CharWF { cp := [x], attrs := a } := single_wf [x] a

/-- The loop re-adding single characters. -/
theorem addSingles_spec (a : Attrs) (cps : List Nat) (hn : cps.Nodup) (r : Repertoire) (h : WF r)
    (habs : ∀ x ∈ cps, r.lookup [x] = none) :
    ∃ r', LGR.addSingles a r cps = (r', .ok ()) ∧ WF r' ∧ r'.ranges = r.ranges ∧
      (∀ j, longs r' j = longs r j) ∧
      (∀ x ∈ cps, r'.lookup [x] = some { cp := [x], attrs := a }) ∧
      (∀ k, (∀ x ∈ cps, k ≠ [x]) → r'.lookup k = r.lookup k) := by
  induction cps generalizing r with
  | nil => exact ⟨r, rfl, h, rfl, fun _ => rfl, by simp, fun _ _ => rfl⟩
  | cons c cps ih =>
    simp only [List.nodup_cons] at hn
    obtain ⟨r1, h1⟩ := (addCharObj_ok_iff (r := r) (c := { cp := [c], attrs := a }) (by simp)).2
      (habs c (by simp))
    have hl1 := lookup_addCharObj h1
    have hwf1 := addCharObj_wf h (single_charWF c a) h1
    obtain ⟨r2, h2, hwf2, hr2, hlo2, hs2, ho2⟩ := ih hn.2 r1 hwf1 (by
      intro x hx
      rw [hl1, if_neg]
      · exact habs x (by simp [hx])
      · intro hxc; cases hxc; exact hn.1 hx)
    have hr1 : r1.ranges = r.ranges := by
      obtain ⟨_, _, _, hr, _⟩ := addCharObj_form h1; exact hr
    refine ⟨r2, ?_, hwf2, hr2.trans hr1, fun j => (hlo2 j).trans (longs_add rfl h1 j), ?_, ?_⟩
    · unfold LGR.addSingles
      have : r.addChar [c] a = .ok r1 := by simpa [addChar] using h1
      simp only [this]; exact h2
    · intro x hx
      by_cases hxc : x ∈ cps
      · exact hs2 x hxc
      · have : x = c := by simpa [hxc] using hx
        subst this
        rw [ho2 [x] (by intro y hy hxy; cases hxy; exact hxc hy), hl1, if_pos rfl]
    · intro k hk
      rw [ho2 k (fun x hx => hk x (by simp [hx])), hl1, if_neg (hk c (by simp))]

/-- A character without its range mark. -/
def noRange (c : CharObj) : CharObj := { c with range := none }

/-- Every range of the list is fully present, its members have one set of attributes and no
variants. -/
def Expandable (r : Repertoire) : Prop :=
  ∀ f l, (f, l) ∈ r.ranges → f < l ∧ ∃ a : Attrs, ∀ x, f ≤ x → x ≤ l →
    ∃ rg, r.lookup [x] = some { cp := [x], range := rg, attrs := a }

open Classical in
theorem expandRange_spec (db : UniDb) (g : LGR) (h : WF g.rep) (hx : Expandable g.rep) {f l : Nat}
    (hm : (f, l) ∈ g.rep.ranges) (hid : C50.IdnaOk db g [f]) :
    ∃ r', g.expandRange db f l = ({ g with rep := r' }, .ok ()) ∧ WF r' ∧
      r'.ranges = g.rep.ranges.erase (f, l) ∧ (∀ j, longs r' j = longs g.rep j) ∧
      (∀ k, r'.lookup k = if ∃ x, f ≤ x ∧ x ≤ l ∧ k = [x] then (g.rep.lookup k).map noRange
        else g.rep.lookup k) := by
  obtain ⟨hfl, a, ha⟩ := hx f l hm
  obtain ⟨rg, hf⟩ := ha f le_rfl hfl.le
  unfold LGR.expandRange
  rw [if_neg (by omega)]
  have hget : g.getChar db (.int f) = .ok { cp := [f], range := rg, attrs := a } := by
    unfold LGR.getChar
    rw [C50.checkConvert_ok.2 ⟨.int f, hid⟩]
    exact getChar_ok.2 hf
  simp only [hget]
  have hd : g.rep.delRange f l = ({ (delRangeLoop g.rep (cpRange f l)).1 with
      ranges := g.rep.ranges.erase (f, l) }, .ok ()) ∧ WF (delRangeLoop g.rep (cpRange f l)).1 ∧
      (∀ k, (delRangeLoop g.rep (cpRange f l)).1.lookup k =
        if ∃ x ∈ cpRange f l, k = [x] then none else g.rep.lookup k) := by
    obtain ⟨hw, hr, hcase⟩ := delRangeLoop_spec (cpRange f l) (cpRange_nodup f l) g.rep h
    rcases hcase with ⟨ho, _, hlk⟩ | ⟨pre, x, post, hcps, hno, _⟩
    · refine ⟨?_, hw, hlk⟩
      unfold delRange
      rw [if_neg (by simpa using hfl), if_neg (by simpa using hm)]
      generalize hg : delRangeLoop g.rep (cpRange f l) = res at *
      obtain ⟨r', o⟩ := res
      simp only at ho hr; subst ho
      simp only [hr]
    · have : x ∈ cpRange f l := by rw [hcps]; simp
      rw [mem_cpRange] at this
      obtain ⟨_, h1⟩ := ha x this.1 this.2
      rw [h1] at hno; simp at hno
  obtain ⟨hd, hw, hlk⟩ := hd
  simp only [hd]
  have hw' : WF { (delRangeLoop g.rep (cpRange f l)).1 with ranges := g.rep.ranges.erase (f, l) } :=
    wf_ranges hw _
  obtain ⟨r', he, hwf', hr', hlo', hs', ho'⟩ := addSingles_spec a (cpRange f l) (cpRange_nodup f l)
    _ hw' (by intro x hx; rw [lookup_ranges, hlk, if_pos ⟨x, hx, rfl⟩])
  refine ⟨r', by rw [he], hwf', hr', ?_, ?_⟩
  · intro j; rw [hlo' j]; exact longs_delRangeLoop _ _ h j
  · intro k
    by_cases hk : ∃ x, f ≤ x ∧ x ≤ l ∧ k = [x]
    · rw [if_pos hk]
      obtain ⟨x, h1, h2, rfl⟩ := hk
      obtain ⟨rg', hx'⟩ := ha x h1 h2
      rw [hs' x (mem_cpRange.2 ⟨h1, h2⟩), hx']; rfl
    · rw [if_neg hk]
      have hk' : ∀ x ∈ cpRange f l, k ≠ [x] := by
        intro x hx hkx
        rw [mem_cpRange] at hx
        exact hk ⟨x, hx.1, hx.2, hkx⟩
      rw [ho' k hk', lookup_ranges, hlk, if_neg]
      rintro ⟨x, hx, hkx⟩; exact hk' x hx hkx

open Classical in
theorem expandLoop_spec (db : UniDb) (rs : List (Nat × Nat)) (g : LGR) (h : WF g.rep)
    (hx : Expandable g.rep) (hsub : rs.Subperm g.rep.ranges)
    (hid : ∀ f l, (f, l) ∈ rs → C50.IdnaOk db g [f]) :
    ∃ r', g.expandLoop db rs = ({ g with rep := r' }, .ok ()) ∧ WF r' ∧
      r'.ranges = g.rep.ranges.diff rs ∧ (∀ j, longs r' j = longs g.rep j) ∧
      (∀ k, r'.lookup k = if ∃ f l x, (f, l) ∈ rs ∧ f ≤ x ∧ x ≤ l ∧ k = [x]
        then (g.rep.lookup k).map noRange else g.rep.lookup k) := by
  induction rs generalizing g with
  | nil => exact ⟨g.rep, rfl, h, by simp, fun _ => rfl, by simp⟩
  | cons p rs ih =>
    obtain ⟨f, l⟩ := p
    have hm : (f, l) ∈ g.rep.ranges := hsub.subset (by simp)
    obtain ⟨r1, he1, hwf1, hr1, hlo1, hl1⟩ := expandRange_spec db g h hx hm (hid f l (by simp))
    have hx1 : Expandable r1 := by
      intro f' l' hm'
      rw [hr1] at hm'
      obtain ⟨h1, a, ha⟩ := hx f' l' (List.mem_of_mem_erase hm')
      refine ⟨h1, a, fun x h2 h3 => ?_⟩
      obtain ⟨rg, hrg⟩ := ha x h2 h3
      rw [hl1]
      split
      · exact ⟨none, by rw [hrg]; rfl⟩
      · exact ⟨rg, hrg⟩
    have hsub1 : rs.Subperm r1.ranges := by
      rw [hr1]
      have := hsub.erase (f, l)
      simpa using this
    obtain ⟨r2, he2, hwf2, hr2, hlo2, hl2⟩ := ih { g with rep := r1 } hwf1 hx1 hsub1
      (fun f' l' hm' => hid f' l' (by simp [hm']))
    refine ⟨r2, ?_, hwf2, ?_, fun j => (hlo2 j).trans (hlo1 j), ?_⟩
    · unfold LGR.expandLoop
      simp only [he1]; exact he2
    · rw [hr2]; simp only [hr1, List.diff_cons]
    · intro k
      rw [hl2]; simp only [hl1]
      by_cases hA : ∃ x, f ≤ x ∧ x ≤ l ∧ k = [x]
      · obtain ⟨x, h1, h2, rfl⟩ := hA
        have hB : ∃ f' l' x', (f', l') ∈ (f, l) :: rs ∧ f' ≤ x' ∧ x' ≤ l' ∧ [x] = [x'] :=
          ⟨f, l, x, by simp, h1, h2, rfl⟩
        have hA : ∃ x', f ≤ x' ∧ x' ≤ l ∧ [x] = [x'] := ⟨x, h1, h2, rfl⟩
        simp only [if_pos hA]
        rw [if_pos hB]
        split
        · cases g.rep.lookup [x] <;> simp [noRange]
        · rfl
      · simp only [if_neg hA]
        congr 1
        apply propext
        constructor
        · rintro ⟨f', l', x, hm', h1, h2, hk⟩; exact ⟨f', l', x, by simp [hm'], h1, h2, hk⟩
        · rintro ⟨f', l', x, hm', h1, h2, hk⟩
          rcases List.mem_cons.1 hm' with he | hm'
          · cases he; exact absurd ⟨x, h1, h2, hk⟩ hA
          · exact ⟨f', l', x, hm', h1, h2, hk⟩

/-! ### Label functions do not see whether a character belongs to a range -/

/-- `get_chars_from_prefix` agrees up to the range mark. -/
def Sim (r r' : Repertoire) : Prop :=
  ∀ i b, r'.charsFromPrefix i b = (r.charsFromPrefix i b).map (List.map noRange)

theorem noRange_of_seq {c : CharObj} (h : CharWF c) (hs : c.isSequence = true) : noRange c = c := by
  have : c.range = none := by
    cases hr : c.range with
    | none => rfl
    | some p =>
      obtain ⟨x, hx, _⟩ := h.rangeCp p.1 p.2 (by rw [hr])
      simp [CharObj.isSequence, hx] at hs
  cases c; simp_all [noRange]

theorem sim_of {r r' : Repertoire} (h : WF r) (h' : WF r') (hlo : ∀ j, longs r' j = longs r j)
    (hl : ∀ i, r'.lookup [i] = (r.lookup [i]).map noRange) : Sim r r' := by
  intro i b
  rw [charsFromPrefix_form h, charsFromPrefix_form h', hlo, hl]
  by_cases hc : longs r i = [] ∧ r.lookup [i] = none
  · rw [if_pos hc, if_pos ⟨hc.1, by rw [hc.2]; rfl⟩]; rfl
  · rw [if_neg hc, if_neg (by simpa using hc)]
    simp only [Except.map, List.map_append]
    congr 2
    · symm
      conv_rhs => rw [← List.map_id (sortDesc _ _)]
      apply List.map_congr_left
      intro c hc
      rw [mem_sortDesc, List.mem_filter, longs, List.mem_filter] at hc
      obtain ⟨p, hp, _, hm⟩ := bucket_mem hc.1.1
      exact noRange_of_seq (h.chars p hp c hm) hc.1.2
    · cases r.lookup [i] with
      | none => rfl
      | some c =>
        simp only [Option.map_some, Option.filter_some, noRange, CharObj.hasVariant]
        split <;> rfl

section sim
variable {r r' : Repertoire}

theorem pickChar_sim (env : Env) (label : Seq) (i : Nat) (rest : Seq) (cs : List CharObj) :
    env.pickChar label i rest (cs.map noRange) =
      (env.pickChar label i rest cs).map (fun p => (p.1.map noRange, p.2)) := by
  induction cs with
  | nil => rfl
  | cons c cs ih =>
    simp only [List.map_cons, Env.pickChar]
    have h1 : (noRange c).isSequence = c.isSequence := rfl
    have h2 : (noRange c).isPrefixOf rest = c.isPrefixOf rest := rfl
    have h3 : env.testChar (noRange c) label i = env.testChar c label i := rfl
    rw [h1, h2, h3, ih]
    split
    · rfl
    · cases env.testChar c label i with
      | error e => rfl
      | ok b =>
        cases b with
        | true => rfl
        | false =>
          cases env.pickChar label i rest cs with
          | error e => rfl
          | ok p => rfl

/-- Forget the range mark of the characters listed. -/
def noRangeP (p : Env.Prelim) : Env.Prelim := { p with chars := p.chars.map noRange }

theorem prelimLoop_sim (env : Env) (hs : Sim r r') (label : Seq) (fuel i : Nat) (rest : Seq) :
    env.prelimLoop r' label fuel i rest = (env.prelimLoop r label fuel i rest).map noRangeP := by
  induction fuel generalizing i rest with
  | zero => cases rest <;> rfl
  | succ n ih =>
    cases rest with
    | nil => rfl
    | cons cp rest =>
      simp only [Env.prelimLoop, hs cp]
      cases r.charsFromPrefix cp with
      | error e =>
        simp only [Except.map, ih]
        cases env.prelimLoop r label n (i + 1) rest <;> rfl
      | ok cs =>
        simp only [Except.map, pickChar_sim]
        cases env.pickChar label i (cp :: rest) cs with
        | error e => rfl
        | ok p =>
          obtain ⟨oc, pend⟩ := p
          cases oc with
          | some c =>
            simp only [Except.map, Option.map_some]
            have h1 : (noRange c).len = c.len := rfl
            rw [h1, ih]
            cases env.prelimLoop r label n (i + c.len) ((cp :: rest).drop c.len) <;> rfl
          | none =>
            simp only [Except.map, Option.map_none, ih]
            cases env.prelimLoop r label n (i + 1) rest <;> rfl

theorem prelim_sim (env : Env) (hs : Sim r r') (label : Seq) :
    env.prelim r' label = (env.prelim r label).map noRangeP := prelimLoop_sim env hs _ _ _ _

theorem partitionsLoop_sim (env : Env) (label pfx : Seq)
    (rec rec' : Seq → Seq → Except Err (List (List CharObj)))
    (hrec : ∀ l p, rec' l p = (rec l p).map (List.map (List.map noRange))) (cs : List CharObj) :
    env.partitionsLoop label pfx rec' (cs.map noRange) =
      (env.partitionsLoop label pfx rec cs).map (List.map (List.map noRange)) := by
  induction cs with
  | nil => rfl
  | cons c cs ih =>
    simp only [List.map_cons, Env.partitionsLoop]
    have h2 : (noRange c).isPrefixOf label = c.isPrefixOf label := rfl
    have h3 : env.testChar (noRange c) (pfx ++ label) pfx.length
      = env.testChar c (pfx ++ label) pfx.length := rfl
    have h4 : (noRange c).len = c.len := rfl
    have h5 : (noRange c).cp = c.cp := rfl
    rw [h2, h3, h4, h5, ih, hrec]
    split
    · rfl
    · cases env.testChar c (pfx ++ label) pfx.length with
      | error e => rfl
      | ok b =>
        cases b with
        | false => rfl
        | true =>
          simp only
          split
          · cases rec (label.drop c.len) (pfx ++ c.cp) with
            | error e => rfl
            | ok ps =>
              cases env.partitionsLoop label pfx rec cs with
              | error e => rfl
              | ok qs => simp [Except.map]
          · cases env.partitionsLoop label pfx rec cs with
            | error e => rfl
            | ok qs => simp [Except.map]

theorem partitionsAux_sim (env : Env) (hs : Sim r r') (fuel : Nat) (label pfx : Seq) :
    env.partitionsAux r' fuel label pfx =
      (env.partitionsAux r fuel label pfx).map (List.map (List.map noRange)) := by
  induction fuel generalizing label pfx with
  | zero => cases label <;> rfl
  | succ n ih =>
    cases label with
    | nil => rfl
    | cons cp rest =>
      simp only [Env.partitionsAux, hs cp]
      cases r.charsFromPrefix cp with
      | error e => rfl
      | ok cs => exact partitionsLoop_sim env _ _ _ _ ih cs

/-- Segmentations of a label. -/
theorem partitions_sim (env : Env) (hs : Sim r r') (label : Seq) :
    env.partitions r' label = (env.partitions r label).map (List.map (List.map noRange)) :=
  partitionsAux_sim env hs _ _ _

theorem indexOnPartition_sim (env : Env) (cs : List CharObj) (pre : Seq) :
    env.indexOnPartition pre (cs.map noRange) = env.indexOnPartition pre cs := by
  induction cs generalizing pre with
  | nil => rfl
  | cons c cs ih =>
    simp only [List.map_cons, Env.indexOnPartition]
    have h1 : (cs.map noRange).flatMap CharObj.cp = cs.flatMap CharObj.cp := by
      rw [List.flatMap_map]; rfl
    rw [h1, show (noRange c).cp = c.cp from rfl, show (noRange c).getVariants = c.getVariants from rfl,
      ih]

theorem mapE_sim {α β : Type} (f : α → Except Err β) (g : α → α) (h : ∀ a, f (g a) = f a) (l : List α) :
    Env.mapE f (l.map g) = Env.mapE f l := by
  induction l with
  | nil => rfl
  | cons a l ih => simp only [List.map_cons, Env.mapE, h, ih]

theorem indexLabel0_sim (env : Env) (hs : Sim r r') (label : Seq) :
    env.indexLabel0 r' label = env.indexLabel0 r label := by
  unfold Env.indexLabel0
  rw [prelim_sim env hs, partitions_sim env hs]
  split
  · rfl
  cases env.prelim r label with
  | error e => rfl
  | ok p =>
    simp only [Except.map, noRangeP]
    split
    · rfl
    · cases env.partitions r label with
      | error e => rfl
      | ok ps => simp only; rw [mapE_sim _ _ (fun a => indexOnPartition_sim env a [])]

theorem indexLabel_sim (env : Env) (hs : Sim r r') (label : Seq) (n : Nat) :
    env.indexLabel r' label n = env.indexLabel r label n := by
  induction n generalizing label with
  | zero => exact indexLabel0_sim env hs label
  | succ n ih => simp only [Env.indexLabel, indexLabel0_sim env hs, ih]

variable (env : FullEnv)

theorem dispCharLoop_sim (b : Bool) (label : Seq) (i : Nat) (rest : Seq) (cs : List CharObj) :
    env.dispCharLoop b label i rest (cs.map noRange) = env.dispCharLoop b label i rest cs := by
  induction cs with
  | nil => rfl
  | cons c cs ih =>
    simp only [List.map_cons, FullEnv.dispCharLoop]
    rw [ih]; rfl

theorem dispLoop_sim (hs : Sim r r') (b : Bool) (label : Seq) (i : Nat) (rest : Seq) :
    env.dispLoop r' b label i rest = env.dispLoop r b label i rest := by
  induction rest generalizing i with
  | nil => rfl
  | cons cp rest ih =>
    simp only [FullEnv.dispLoop, ih]
    have : env.dispAt r' b label i cp rest = env.dispAt r b label i cp rest := by
      simp only [FullEnv.dispAt, hs cp]
      cases r.charsFromPrefix cp with
      | error e => rfl
      | ok cs => exact dispCharLoop_sim env b label i _ cs
    rw [this]

/-- Forget the range mark of the characters listed. -/
def noRangeE (e : FullEnv.Eligible) : FullEnv.Eligible := { e with chars := e.chars.map noRange }

theorem testEligible_sim (hs : Sim r r') (actions : List Action) (label : Seq) (v : Bool) :
    env.testEligible r' actions label v = (env.testEligible r actions label v).map noRangeE := by
  unfold FullEnv.testEligible FullEnv.testDisposition
  rw [prelim_sim env.toEnv hs, dispLoop_sim env hs]
  split
  · rfl
  cases env.prelim r label with
  | error e => rfl
  | ok p =>
    simp only [Except.map, noRangeP]
    split
    · rfl
    · cases env.dispLoop r (!v) label 0 label with
      | error e => rfl
      | ok d =>
        simp only
        cases applyActions env actions label d.1 (if d.1 ≠ [] then d.2 else false) with
        | error e => rfl
        | ok q => simp only; split <;> rfl

theorem prefixLoop_sim (label pfx : Seq) (cs : List CharObj) :
    env.prefixLoop label pfx (cs.map noRange) =
      (env.prefixLoop label pfx cs).map (List.map noRange) := by
  induction cs with
  | nil => rfl
  | cons c cs ih =>
    simp only [List.map_cons, FullEnv.prefixLoop]
    rw [ih, show (noRange c).isPrefixOf label = c.isPrefixOf label from rfl,
      show (noRange c).cp = c.cp from rfl, show (noRange c).len = c.len from rfl,
      show env.testChar (noRange c) (pfx ++ c.cp ++ label.drop c.len) pfx.length =
        env.testChar c (pfx ++ c.cp ++ label.drop c.len) pfx.length from rfl]
    split
    · rfl
    · cases env.testChar c (pfx ++ c.cp ++ label.drop c.len) pfx.length with
      | error e => rfl
      | ok b =>
        cases env.prefixLoop label pfx cs with
        | error e => rfl
        | ok l => cases b <;> rfl

theorem samePrefix_sim (hs : Sim r r') (x : Nat) (xs pfx : Seq) :
    env.samePrefix r' x xs pfx = (env.samePrefix r x xs pfx).map (List.map noRange) := by
  unfold FullEnv.samePrefix
  simp only [hs x]
  cases r.charsFromPrefix x true with
  | error e => rfl
  | ok wv =>
    cases r.charsFromPrefix x false with
    | error e => rfl
    | ok all =>
      simp only [Except.map, prefixLoop_sim]
      cases env.prefixLoop (x :: xs) pfx wv with
      | error e => rfl
      | ok l =>
        simp only [Except.map]
        have hf : ∀ p : CharObj → Bool, (∀ c, p (noRange c) = p c) → ∀ L : List CharObj,
            (L.map noRange).filter p = (L.filter p).map noRange := by
          intro p hp L
          rw [List.filter_map]; congr 2; funext c; exact hp c
        have hfd : ((all.map noRange).find? (fun c => c.isPrefixOf (x :: xs))) =
            (all.find? (fun c => c.isPrefixOf (x :: xs))).map noRange := by
          rw [List.find?_map]; rfl
        have hl1 : (if l.map noRange = [] then
            ((all.map noRange).find? (fun c => c.isPrefixOf (x :: xs))).toList else l.map noRange) =
            (if l = [] then (all.find? (fun c => c.isPrefixOf (x :: xs))).toList else l).map noRange := by
          rw [hfd]
          simp only [List.map_eq_nil_iff]
          split
          · cases all.find? (fun c => c.isPrefixOf (x :: xs)) <;> rfl
          · rfl
        rw [hl1]
        generalize (if l = [] then (all.find? (fun c => c.isPrefixOf (x :: xs))).toList else l) = l1
        rw [List.map_append, hf _ (fun c => rfl), List.flatMap_map, List.map_flatMap]
        congr 2
        congr 1
        funext ch
        exact hf _ (fun c => rfl) all

theorem flatMapE_congr {α β : Type} (f f' : α → Except Err (List β)) (g : α → α)
    (h : ∀ a, f' (g a) = f a) (l : List α) : FullEnv.flatMapE f' (l.map g) = FullEnv.flatMapE f l := by
  induction l with
  | nil => rfl
  | cons a l ih => simp only [List.map_cons, FullEnv.flatMapE, h, ih]

theorem genLoop_sim (hs : Sim r r') (hide : Bool) (fuel : Nat) (first : Bool) (f : ScriptFilter)
    (pfx : Seq) (hv : Bool) (label : Seq) :
    env.genLoop r' hide fuel first f pfx hv label = env.genLoop r hide fuel first f pfx hv label := by
  induction fuel generalizing first f pfx hv label with
  | zero => cases label <;> rfl
  | succ n ih =>
    cases label with
    | nil => rfl
    | cons x xs =>
      simp only [FullEnv.genLoop, samePrefix_sim env hs]
      cases env.samePrefix r x xs pfx with
      | error e => rfl
      | ok cs =>
        simp only [Except.map]
        apply flatMapE_congr
        intro c
        simp only [ih]; rfl

theorem scriptsForChar_sim (cs : List CharObj) (cur : Seq) :
    env.scriptsForChar (cs.map noRange) cur = env.scriptsForChar cs cur := by
  unfold FullEnv.scriptsForChar
  rw [List.filter_map, List.flatMap_map]; rfl

theorem variantScriptsLoop_sim (hs : Sim r r') (acc : Option (List String)) (cur l : Seq) :
    env.variantScriptsLoop r' acc cur l = env.variantScriptsLoop r acc cur l := by
  induction l generalizing acc cur with
  | nil => rfl
  | cons c l ih =>
    simp only [FullEnv.variantScriptsLoop, hs c]
    cases r.charsFromPrefix c true with
    | error e => simp only [Except.map, ih]
    | ok cs => simp only [Except.map, ih, scriptsForChar_sim]

theorem mkFilter_sim (hs : Sim r r') (label : Seq) : env.mkFilter r' label = env.mkFilter r label := by
  simp only [FullEnv.mkFilter, variantScriptsLoop_sim env hs]

theorem genVariants_sim (hs : Sim r r') (hide : Bool) (label : Seq) :
    env.genVariants r' hide label = env.genVariants r hide label := by
  simp only [FullEnv.genVariants, mkFilter_sim env hs, genLoop_sim env hs]

theorem itemOf_sim (hs : Sim r r') (actions : List Action) (label : Seq) (g : FullEnv.Gen) :
    env.itemOf r' actions label g = env.itemOf r actions label g := by
  simp only [FullEnv.itemOf, testEligible_sim env hs]
  cases env.testEligible r actions g.cps (decide (g.cps ≠ label)) <;> rfl

theorem listLoop_sim (hs : Sim r r') (actions : List Action) (o : FullEnv.Options) (label : Seq)
    (gs : List FullEnv.Gen) (handled : List Seq) (orig : Option FullEnv.Item) :
    env.listLoop r' actions o label handled orig gs = env.listLoop r actions o label handled orig gs := by
  induction gs generalizing handled orig with
  | nil => rfl
  | cons g gs ih => simp only [FullEnv.listLoop, ih, itemOf_sim env hs]

theorem computeDisposition_sim (hs : Sim r r') (actions : List Action) (hasDb : Bool)
    (o : FullEnv.Options) (label : Seq) :
    env.computeDisposition r' actions hasDb o label = env.computeDisposition r actions hasDb o label := by
  simp only [FullEnv.computeDisposition, genVariants_sim env hs, listLoop_sim env hs,
    testEligible_sim env hs]
  cases env.testEligible r actions label with
  | error e => rfl
  | ok el =>
    simp only [Except.map, noRangeE, List.map_map]
    rfl

theorem estimate_sim (hs : Sim r r') (hide : Bool) (label : Seq) :
    env.estimate r' hide label = env.estimate r hide label := by
  simp only [FullEnv.estimate, prelim_sim env.toEnv hs, mkFilter_sim env hs]
  cases env.prelim r label with
  | error e => rfl
  | ok p => simp only [Except.map, noRangeP, List.map_map]; rfl

end sim

end C06
end Lgr.Props

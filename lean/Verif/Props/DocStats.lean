import Verif.Props.DocChecks
import Verif.Props.Stats

/-!
# C160: the statistics of an LGR, in terms of the document
-/

namespace Lgr.Props.C160
open Lgr Xml Repertoire LGR RulesXml DocXml C101 C105 Validate Checks

/-! ## Specification -/

/-- The number of code points or sequences of an element. -/
def size : C105.Item → Nat
  | .char _ _ _ => 1
  | .range f l _ => l + 1 - f

/-- A `<char>` with several code points. -/
def isSeq : C105.Item → Bool
  | .char cp _ _ => decide (1 < cp.length)
  | .range _ _ _ => false

/-- A `<range>` with several code points. -/
def isRng : C105.Item → Bool
  | .char _ _ _ => false
  | .range f l _ => decide (f ≠ l)

/-- The first sequence of an element. -/
def first : C105.Item → Seq
  | .char cp _ _ => cp
  | .range f _ _ => [f]

/-- The different code points of the variants of an element. -/
def targets (i : C105.Item) : List Seq := (i.vars.map Variant.cp).dedup

/-- The size of the set of an element and its variants, none if it has no variants. -/
def setSize (i : C105.Item) : Nat := if i.vars = [] then 0 else (insert (first i) (targets i).toFinset).card

/-- `m` is the largest number in the list, 0 if there is none. -/
def IsMax (l : List Nat) (m : Nat) : Prop := (∀ x ∈ l, x ≤ m) ∧ (m ∈ l ∨ m = 0 ∧ l = [])

/-- What the numbers should be. -/
structure Counts (es : List Node) (is : List C105.Item) (s : Stats) : Prop where
  codepoints : s.codepoints = (is.map size).sum
  ranges : s.ranges = (is.filter isRng).length
  sequences : s.sequences = (is.filter isSeq).length
  rules : s.rules = (es.filter (fun e => decide (e.tag = "rule"))).length
  withVariants : s.withVariants = (is.filter (fun i => decide (i.vars ≠ []))).length
  mappings : s.mappings = (is.map (fun i => (targets i).length)).sum
  byType : ∀ t, (dget s.byType t).getD 0 = (is.map (fun i => (i.vars.filter (fun v => decide (v.type = t))).length)).sum
  byTag : ∀ t, (dget s.byTag t).getD 0 = ((is.filter (fun i => decide (t ∈ i.attrs.tags))).map size).sum
  named : (∀ t, dget s.byType t ≠ some 0) ∧ ∀ t, dget s.byTag t ≠ some 0
  largestRange : IsMax ((is.filter isRng).map size) s.largestRangeLen
  largestSequence : IsMax ((is.filter isSeq).map (fun i => (first i).length)) s.largestSequenceLen
  largestSet : IsMax ((is.filter (fun i => decide (i.vars ≠ []))).map setSize) s.largestSet
  theRange : (s.largestRange = none → ∀ i ∈ is, isRng i = false) ∧
    ∀ c, s.largestRange = some c → ∃ i ∈ is, isRng i = true ∧ Holds i (first i) c ∧ size i = s.largestRangeLen
  theSequence : (s.largestSequence = none → ∀ i ∈ is, isSeq i = false) ∧
    ∀ c, s.largestSequence = some c → ∃ i ∈ is, isSeq i = true ∧ Holds i (first i) c ∧ (first i).length = s.largestSequenceLen

/-! ## Ranges are complete -/

theorem intact_new (m : RefManager) (b : Bool) : Intact ({ refs := m, raiseInvalid := b } : LGR).rep :=
  (C104.good_new (db := none) (strict := b) (force := false) m).intact

/-- What is kept while the elements are read. -/
def Whole (g : LGR) : Prop := WF g.rep ∧ Intact g.rep

theorem whole_addCp {db : UniDb} {g : LGR} (h : Whole g) (a : CpArg) (o : Opts) : Whole (g.addCp db a o).1 :=
  ⟨(inv_addCp (db := db) (g := g) (arg := a) (o := o) (P := fun _ => True) ⟨h.1, fun _ _ _ => trivial⟩
    (fun _ _ _ _ => trivial)).wf, intact_addCp db g h.2 a o⟩

theorem whole_addVariant {db : UniDb} {g : LGR} (h : Whole g) (a v : CpArg)
    (t : Option String) (o : Opts) : Whole (g.addVariant db a v t o).1 := by
  refine ⟨(inv_addVariant (db := db) (g := g) (arg := a) (var := v) (t := t)
      (o := o) (P := fun _ => True) ⟨h.1, fun _ _ _ => trivial⟩ (fun _ _ _ _ _ _ _ _ _ => trivial)).wf, ?_⟩
  cases ho : (g.addVariant db a v t o).2 with
  | error e => rw [C02.add_variant_atomic db g _ _ _ _ e ho]; exact h.2
  | ok u =>
    obtain ⟨s', w', c1, c', -, -, hlk', hc1, -, hc2, -, -, hl, hr, -⟩ := C50.add_variant_effect db g h.1 _ _ _ _ ho
    exact intact_change h.2 (s := s') (oc := some c') (by rw [hlk']; rintro _ ⟨⟩; exact hc1)
      (by rintro _ ⟨⟩; exact hc2) hl hr

theorem whole_addRange {db : UniDb} {g : LGR} (h : Whole g) (f l : Nat) (o : Opts)
    (ho : (g.addRange db f l o).2 = .ok ()) : Whole (g.addRange db f l o).1 :=
  ⟨(inv_addRangeL (db := db) (g := g) (f := f) (l := l) (o := o) (P := fun _ => True)
    ⟨h.1, fun _ _ _ => trivial⟩ (fun _ _ => trivial) (fun _ _ _ _ => trivial)).wf,
   intact_addRange db g h.1 h.2 f l o ho⟩

theorem whole_vars {db : UniDb} (cp : Seq) (vs : List XAttrs) {s s' : PState} (h : Whole s.lgr)
    (hf : forEach (parseVar db false cp) s vs = (s', .ok ())) : Whole s'.lgr := by
  induction vs generalizing s with
  | nil =>
    simp only [forEach, Prod.mk.injEq] at hf
    rw [← hf.1]; exact h
  | cons a vs ih =>
    simp only [forEach] at hf
    cases hp : parseVar db false cp s a with
    | mk s1 o =>
      rw [hp] at hf
      cases o with
      | error e => simp at hf
      | ok u =>
        refine ih ?_ hf
        unfold parseVar at hp
        split at hp
        · simp at hp
        · rw [(C104.guard_ok hp).1]
          exact whole_addVariant h _ _ _ _

theorem whole_elem {db : UniDb} {s s' : PState} {e : Elem} (h : Whole s.lgr)
    (hf : parseElem db false s e = (s', .ok ())) : Whole s'.lgr := by
  unfold parseElem at hf
  by_cases h1 : e.tag = "char"
  · rw [if_pos h1] at hf
    split at hf
    · simp at hf
    · rename_i cp hcp
      dsimp only at hf
      cases hg : guard false (orderCheck s cp) ((orderCheck s cp).lgr.addCp db (.seq cp) (optsOf false e.attrs)) with
      | mk s2 o =>
        rw [hg] at hf
        cases o with
        | error er => simp at hf
        | ok u =>
          refine whole_vars cp e.vars ?_ hf
          rw [(C104.guard_ok hg).1, C104.orderCheck_lgr]
          exact whole_addCp h _ _
  · rw [if_neg h1] at hf
    by_cases h2 : e.tag = "range"
    · rw [if_pos h2] at hf
      split at hf
      · simp at hf
      · rename_i f _
        split at hf
        · simp at hf
        · rename_i l _
          obtain ⟨g1, g2⟩ := C104.guard_ok hf
          rw [g1]
          cases ho : (s.lgr.addRange db f l (optsOf false e.attrs)).2 with
          | ok u => exact whole_addRange h f l _ ho
          | error er =>
            rw [ho] at g2
            rcases g2 with h | h <;> cases h
    · rw [if_neg h2] at hf
      simp only [Prod.mk.injEq] at hf
      rw [← hf.1]; exact h

theorem whole_elems {db : UniDb} (es : List Elem) {s s' : PState} (h : Whole s.lgr)
    (hf : forEach (parseElem db false) s es = (s', .ok ())) : Whole s'.lgr := by
  induction es generalizing s with
  | nil =>
    simp only [forEach, Prod.mk.injEq] at hf
    rw [← hf.1]; exact h
  | cons e es ih =>
    simp only [forEach] at hf
    cases hp : parseElem db false s e with
    | mk s1 o =>
      rw [hp] at hf
      cases o with
      | error e => simp at hf
      | ok u => exact ih (whole_elem h hp) hf

/-- The LGR read has complete ranges, and the names of the rules of the document. -/
theorem whole_doc {R : Reader} (hf : R.force = false) {d : Doc} {cs cs1 : Rfc7940.Results} {g : Loaded}
    (h : parseDoc R cs d = (cs1, .ok (some g))) : Whole g.lgr ∧
      g.rules.ruleNames = ((d.rules.getD []).filter isRule).map (fun n => dget n.attrs "name") := by
  cases hme : d.metaE with
  | none => exact absurd (by rw [h]) (C104.no_meta_no_lgr R cs d hme g)
  | some ms =>
    unfold parseDoc at h
    rw [hme] at h
    dsimp only at h
    split at h
    · cases h
    · rename_i mst hms
      split at h
      · cases h
      · rename_i p hp
        split at h
        · cases h
        · rename_i r t hr
          injection h with _ h
          injection h with h
          injection h with h
          subst h
          rw [hf] at hp
          unfold parseData at hp
          split at hp
          · cases hp
          · rename_i s1 hs1
            injection hp with hp _
            subst hp
            have hw : Whole s1.lgr := whole_elems d.data (s := { lgr := newLgr R mst.md, checks := mst.checks })
              ⟨wf_empty, intact_new _ _⟩ hs1
            refine ⟨hw, ?_⟩
            exact (C140.names_run _ hr).1.trans (by simp [newRules])

/-! ## Entries and elements -/

theorem first_has {db : UniDb} {strict : Bool} {m : RefManager} {i : C105.Item} (h : (given db strict m).Fine i) : i.Has (first i) := by
  obtain ⟨k, hk⟩ := h.2.2.2.1
  cases i with
  | char cp a vs => rfl
  | range f l a =>
    obtain ⟨x, h1, h2, -⟩ := hk
    exact ⟨f, Nat.le_refl _, h1.trans h2, rfl⟩

/-- The entries listed by the repertoire are those of the elements, in some order. -/
theorem iter_items {r : Repertoire} (hw : WF r) (hi : Intact r) {is : List C105.Item} (hap : Apart is)
    (hfirst : ∀ i ∈ is, i.Has (first i)) (h1 : ∀ k, (r.lookup k).isSome ↔ ∃ i ∈ is, i.Has k)
    (h2 : ∀ k c, r.lookup k = some c → ∃ i ∈ is, Holds i k c) :
    ∃ φ : C105.Item → CharObj, (is.map φ).Perm r.iter ∧ ∀ i ∈ is, Holds i (first i) (φ i) := by
  have hex : ∀ i, ∃ c, i ∈ is → r.lookup (first i) = some c := by
    intro i
    by_cases hm : i ∈ is
    · obtain ⟨c, hc⟩ := Option.isSome_iff_exists.1 ((h1 (first i)).2 ⟨i, hm, hfirst i hm⟩)
      exact ⟨c, fun _ => hc⟩
    · exact ⟨{ cp := [] }, fun h => absurd h hm⟩
  choose φ hφ using hex
  have huniq : ∀ i ∈ is, ∀ j ∈ is, ∀ k, i.Has k → j.Has k → i = j := by
    intro i hm j hj k hk hk'
    rcases C106.apart_cases hap hm hj with h0 | h0 | h0
    · exact h0
    · exact absurd hk' (h0 k hk)
    · exact absurd hk (h0 k hk')
  have hH : ∀ i ∈ is, Holds i (first i) (φ i) := by
    intro i hm
    obtain ⟨j, hj, hh⟩ := h2 _ _ (hφ i hm)
    obtain rfl := huniq j hj i hm _ hh.1 (hfirst i hm)
    exact hh
  refine ⟨φ, ?_, hH⟩
  have hnd : r.iter.Nodup := List.Nodup.of_map _ (iter_nodup hw)
  refine (List.perm_ext_iff_of_nodup ?_ hnd).2 ?_
  · rw [List.nodup_iff_pairwise_ne, List.pairwise_map]
    refine hap.imp_of_mem ?_
    intro i j hm hj hij he
    have e1 := (hH i hm).2.1
    have e2 := (hH j hj).2.1
    rw [he, e2] at e1
    exact hij (first i) (hfirst i hm) (e1 ▸ hfirst j hj)
  · intro c
    rw [List.mem_map, mem_iter_intact hw hi]
    constructor
    · rintro ⟨i, hm, rfl⟩
      have hh := hH i hm
      refine ⟨by rw [hh.2.1]; exact hφ i hm, ?_⟩
      intro f l hr
      rw [hh.2.1]
      rw [hh.2.2.2.1] at hr
      cases i with
      | char cp a vs => simp [Item.span] at hr
      | range f' l' a =>
        simp only [Item.span] at hr
        split at hr
        · simp at hr
        · simp only [Option.some.injEq, Prod.mk.injEq] at hr
          rw [← hr.1]; rfl
    · rintro ⟨hl, hr⟩
      obtain ⟨i, hm, hh⟩ := h2 _ _ hl
      refine ⟨i, hm, ?_⟩
      have : c.cp = first i := by
        have hs := hh.2.2.2.1
        have hk := hh.1
        cases i with
        | char cp a vs => exact hk
        | range f l a =>
          simp only [Item.span] at hs
          split at hs
          · rename_i he
            obtain ⟨x, x1, x2, x3⟩ := hk
            rw [x3]
            have : x = f := by omega
            rw [this]; rfl
          · exact hr f l hs
      rw [this] at hl
      exact Option.some.inj ((hφ i hm).symm.trans hl)

/-! ## Counting -/

theorem sum_iter {r : Repertoire} {is : List C105.Item} {φ : C105.Item → CharObj} (hp : (is.map φ).Perm r.iter)
    (hH : ∀ i ∈ is, Holds i (first i) (φ i)) (w : CharObj → Nat) (w' : C105.Item → Nat)
    (h : ∀ i ∈ is, ∀ c, Holds i (first i) c → c ∈ r.iter → w c = w' i) :
    (r.iter.map w).sum = (is.map w').sum := by
  rw [← (hp.map w).sum_eq, List.map_map]
  congr 1
  apply List.map_congr_left
  intro i hm
  exact h i hm _ (hH i hm) (hp.subset (List.mem_map_of_mem hm))

theorem sum_filter {α : Type} (P : α → Bool) (w : α → Nat) (l : List α) :
    (l.map (fun a => if P a then w a else 0)).sum = ((l.filter P).map w).sum := by
  induction l with
  | nil => rfl
  | cons a l ih =>
    rw [List.map_cons, List.sum_cons, ih, List.filter_cons]
    by_cases h : P a <;> simp [h]

theorem isRange_holds {i : C105.Item} {k : Seq} {c : CharObj} (h : Holds i k c) : c.isRange = isRng i := by
  unfold CharObj.isRange
  rw [h.2.2.2.1]
  cases i with
  | char cp a vs => rfl
  | range f l a =>
    by_cases he : f = l <;> simp [Item.span, isRng, he]

theorem rangeLen_holds {i : C105.Item} {k : Seq} {c : CharObj} (h : Holds i k c) : rangeLen c = size i := by
  unfold rangeLen
  rw [h.2.2.2.1]
  cases i with
  | char cp a vs => rfl
  | range f l a =>
    by_cases he : f = l
    · subst he; simp [Item.span, size]
    · simp [Item.span, size, he]

theorem isSeq_holds {i : C105.Item} {c : CharObj} (h : Holds i (first i) c) :
    (!c.isRange && c.isSequence) = isSeq i := by
  rw [isRange_holds h]
  unfold CharObj.isSequence
  rw [h.2.1]
  cases i with
  | char cp a vs =>
    simp only [isRng, isSeq, first, Bool.not_false, Bool.true_and]
    rfl
  | range f l a => simp [isSeq, first]

theorem vars_perm {i : C105.Item} {k : Seq} {c : CharObj} (h : Holds i k c) (hc : c.getVariants.Nodup) (hi : i.vars.Nodup) :
    c.getVariants.Perm i.vars := (List.perm_ext_iff_of_nodup hc hi).2 h.2.2.2.2

theorem vars_nil {i : C105.Item} {k : Seq} {c : CharObj} (h : Holds i k c) : c.getVariants = [] ↔ i.vars = [] := by
  rw [List.eq_nil_iff_forall_not_mem, List.eq_nil_iff_forall_not_mem]
  exact forall_congr' fun v => not_congr (h.2.2.2.2 v)

theorem card_dedup {α : Type} [DecidableEq α] (l : List α) : l.dedup.length = l.toFinset.card := by
  rw [List.card_toFinset]

theorem targets_holds {i : C105.Item} {k : Seq} {c : CharObj} (h : Holds i k c) :
    (c.getVariants.map Variant.cp).toFinset = (targets i).toFinset := by
  ext x
  simp only [targets, List.mem_toFinset, List.mem_dedup, List.mem_map]
  exact exists_congr fun v => and_congr_left fun _ => h.2.2.2.2 v

theorem mappings_holds {i : C105.Item} {k : Seq} {c : CharObj} (h : Holds i k c) :
    (c.getVariants.map Variant.cp).dedup.length = (targets i).length := by
  rw [card_dedup, targets_holds h]
  exact List.toFinset_card_of_nodup (List.nodup_dedup _)

theorem setLen_holds {i : C105.Item} {c : CharObj} (h : Holds i (first i) c) : C69.setLen c = setSize i := by
  unfold C69.setLen setSize
  rw [card_dedup, List.toFinset_append, targets_holds h]
  by_cases hv : i.vars = []
  · rw [if_pos hv, (vars_nil h).2 hv]
    simp [targets, hv]
  · have : c.getVariants ≠ [] := fun he => hv ((vars_nil h).1 he)
    rw [if_neg hv, if_pos (List.length_pos_iff.2 this), h.2.1]
    congr 1
    ext x
    simp only [Finset.mem_union, Finset.mem_insert, List.mem_toFinset, List.mem_singleton]
    exact or_comm

theorem largest_items {is : List C105.Item} {φ : C105.Item → CharObj} {l : List CharObj} (hp : (is.map φ).Perm l)
    {P : CharObj → Prop} {w : CharObj → Nat} {best : Nat} {who : Option CharObj} (h : C69.Largest P w l best who)
    {P' : C105.Item → Bool} {w' : C105.Item → Nat} (hP : ∀ i ∈ is, (P (φ i) ↔ P' i = true) ∧ w (φ i) = w' i) :
    IsMax ((is.filter P').map w') best ∧ (who = none → ∀ i ∈ is, P' i = false) ∧
    ∀ c, who = some c → ∃ i ∈ is, P' i = true ∧ φ i = c ∧ w' i = best := by
  cases who with
  | none =>
    obtain ⟨h1, h2⟩ := h
    have h3 : ∀ i ∈ is, P' i = false := by
      intro i hi
      have := h2 _ (hp.subset (List.mem_map_of_mem hi))
      rw [(hP i hi).1] at this
      simpa using this
    have h4 : is.filter P' = [] := List.filter_eq_nil_iff.2 (fun i hi => by simp [h3 i hi])
    refine ⟨?_, fun _ => h3, by simp⟩
    rw [h4]
    exact ⟨by simp, .inr ⟨h1, rfl⟩⟩
  | some c =>
    obtain ⟨h1, h2, h3, h4⟩ := h
    obtain ⟨i, hi, rfl⟩ := List.mem_map.1 (hp.symm.subset h2)
    have hb : w' i = best := by rw [h1, (hP i hi).2]
    have hPi := ((hP i hi).1).1 h3
    refine ⟨⟨?_, .inl (List.mem_map.2 ⟨i, List.mem_filter.2 ⟨hi, hPi⟩, hb⟩)⟩, by simp, ?_⟩
    · intro x hx
      obtain ⟨j, hj, rfl⟩ := List.mem_map.1 hx
      obtain ⟨j1, j2⟩ := List.mem_filter.1 hj
      rw [← (hP j j1).2]
      exact h4 _ (hp.subset (List.mem_map_of_mem j1)) (((hP j j1).1).2 j2)
    · rintro _ ⟨⟩
      exact ⟨i, hi, hPi, rfl, hb⟩

theorem fold_max (l : List CharObj) (s : Stats) : (∀ c ∈ l, C69.setLen c ≤ (l.foldl C69.body s).largestSet) ∧
    s.largestSet ≤ (l.foldl C69.body s).largestSet ∧
    ((l.foldl C69.body s).largestSet = s.largestSet ∨ ∃ c ∈ l, (l.foldl C69.body s).largestSet = C69.setLen c) := by
  induction l generalizing s with
  | nil => exact ⟨by simp, Nat.le_refl _, .inl rfl⟩
  | cons c l ih =>
    obtain ⟨h1, h2, h3⟩ := ih (C69.body s c)
    rw [C69.body_largestSet] at h2 h3
    rw [List.foldl_cons]
    refine ⟨?_, by omega, ?_⟩
    · intro d hd
      rcases List.mem_cons.1 hd with rfl | hd
      · omega
      · exact h1 d hd
    · rcases h3 with h3 | ⟨d, hd, h3⟩
      · by_cases hle : C69.setLen c ≤ s.largestSet
        · left; omega
        · right; exact ⟨c, by simp, by omega⟩
      · exact .inr ⟨d, by simp [hd], h3⟩

/-- **C160** The statistics of an LGR that was read are those of its document. -/
theorem document_stats {R : Reader} (hf : R.force = false) {d : Doc} (ht : ∀ e ∈ d.data, ElemTidy e)
    {cs cs1 : Rfc7940.Results} {g : Loaded} (h : parseDoc R cs d = (cs1, .ok (some g))) {is : List C105.Item}
    (hm : Means d.data is) :
    Counts (d.rules.getD []) is (generateStats g.rules.ruleNames.length g.lgr.rep) := by
  obtain ⟨js, j1, j2, j3, j4, j5, -, -⟩ := document_data_partial R hf ht h
  obtain rfl := means_unique ht j1 hm
  obtain ⟨⟨hw, hi⟩, hn⟩ := whole_doc hf h
  obtain ⟨φ, hp, hH⟩ := iter_items hw hi j3 (fun i hm => first_has (j2 i hm)) j4 j5
  have hlen : g.rules.ruleNames.length = ((d.rules.getD []).filter isRule).length := by rw [hn, List.length_map]
  generalize g.rules.ruleNames.length = n at hlen
  generalize g.lgr.rep = r at hw hi hp
  have hin : ∀ c ∈ r.iter, r.lookup c.cp = some c := fun c hc => C26.iter_mem hw hc
  have hsum := fun w w' => sum_iter (r := r) (w := w) (w' := w') hp hH
  have hlr := C69.fold_largest (best := Stats.largestRangeLen) (who := Stats.largestRange)
    (P := fun c => c.isRange = true) (w := rangeLen) C69.body_largestRange r.iter
    (fun c hc _ => C69.rangeLen_pos (lookup_charWF hw (hin c hc))) { rules := n } [] ⟨rfl, by simp⟩
  have hls := C69.fold_largest (best := Stats.largestSequenceLen) (who := Stats.largestSequence)
    (P := fun c => c.isRange = false ∧ c.isSequence = true) (w := fun c => c.cp.length)
    C69.body_largestSequence r.iter
    (fun c _ hp => by have := hp.2; simp only [CharObj.isSequence, decide_eq_true_eq] at this; omega)
    { rules := n } [] ⟨rfl, by simp⟩
  rw [List.nil_append, ← C69.gen_eq] at hlr hls
  obtain ⟨r1, r2, r3⟩ := largest_items hp hlr (P' := isRng) (w' := size) (fun i hm =>
    ⟨by rw [isRange_holds (hH i hm)], rangeLen_holds (hH i hm)⟩)
  obtain ⟨s1, s2, s3⟩ := largest_items hp hls (P' := isSeq) (w' := fun i => (first i).length) (fun i hm =>
    ⟨by rw [← isSeq_holds (hH i hm)]; simp, by rw [(hH i hm).2.1]⟩)
  have hmx := fold_max r.iter { rules := n }
  rw [← C69.gen_eq] at hmx
  have hpos := C69.fold_pos r.iter (fun c hc => lookup_charWF hw (hin c hc))
      (s := { rules := n }) (by simp [dget]) (by simp [dget])
  rw [← C69.gen_eq] at hpos
  refine ⟨?_, ?_, ?_, ?_, ?_, ?_, ?_, ?_, ⟨?_, ?_⟩, r1, s1, ?_, ⟨r2, ?_⟩, ⟨s2, ?_⟩⟩
  · rw [C69.gen_eq, C69.fold_sum (f := Stats.codepoints) C69.body_codepoints, Nat.zero_add]
    exact hsum _ _ (fun i _ c hc _ => by rw [← C69.rangeLen_members, rangeLen_holds hc])
  · rw [C69.gen_eq, C69.fold_sum (f := Stats.ranges) C69.body_ranges, Nat.zero_add, ← C69.sum_ite]
    exact hsum _ _ (fun i _ c hc _ => by rw [isRange_holds hc])
  · rw [C69.gen_eq, C69.fold_sum (f := Stats.sequences) C69.body_sequences, Nat.zero_add, ← C69.sum_ite]
    exact hsum _ _ (fun i _ c hc _ => by rw [isSeq_holds hc])
  · rw [C69.gen_eq, C69.fold_rules]
    exact hlen
  · rw [C69.gen_eq, C69.fold_sum (f := Stats.withVariants) C69.body_withVariants, Nat.zero_add, ← C69.sum_ite]
    refine hsum _ _ (fun i _ c hc _ => ?_)
    have := vars_nil hc
    simp only [decide_eq_true_eq, ne_eq, this]
  · rw [C69.gen_eq, C69.fold_sum (f := Stats.mappings) C69.body_mappings, Nat.zero_add]
    exact hsum _ _ (fun i _ c hc _ => mappings_holds hc)
  · intro t
    rw [C69.gen_eq, C69.fold_sum (f := fun s => (dget s.byType t).getD 0) (C69.body_byType t)]
    simp only [dget, Option.getD_none, Nat.zero_add]
    refine hsum _ _ (fun i hm c hc hci => ?_)
    have hv := vars_perm hc (C69.nodup_vars hw (hin c hci)) (List.Nodup.of_map _ (j2 i hm).2.2.2.2.2)
    rw [(hv.map Variant.type).count_eq, List.count, List.countP_map, List.countP_eq_length_filter]
    congr 1
    apply List.filter_congr
    intro v _
    by_cases h0 : v.type = t
    · subst h0; simp
    · rw [decide_eq_false h0]; exact beq_eq_false_iff_ne.2 h0
  · intro t
    rw [C69.gen_eq, C69.fold_sum (f := fun s => (dget s.byTag t).getD 0) (C69.body_byTag t)]
    simp only [dget, Option.getD_none, Nat.zero_add]
    rw [← sum_filter]
    refine hsum _ _ (fun i hm c hc hci => ?_)
    rw [← C69.rangeLen_members, rangeLen_holds hc, hc.2.2.1]
    have hnd := (j2 i hm).2.1
    by_cases ht : t ∈ i.attrs.tags
    · rw [List.count_eq_one_of_mem hnd ht]; simp [ht]
    · rw [List.count_eq_zero_of_not_mem ht]; simp [ht]
  · intro t h0
    exact absurd (hpos.2 t 0 h0) (by omega)
  · intro t h0
    exact absurd (hpos.1 t 0 h0) (by omega)
  · obtain ⟨m1, -, m3⟩ := hmx
    have hset : ∀ i ∈ js, C69.setLen (φ i) = setSize i := fun i hm => setLen_holds (hH i hm)
    have hz : ∀ i, i.vars = [] → setSize i = 0 := fun i h0 => by simp [setSize, h0]
    have hz' : ∀ i, i.vars ≠ [] → 0 < setSize i := fun i h0 => by
      rw [setSize, if_neg h0]; exact Finset.card_pos.2 ⟨_, Finset.mem_insert_self _ _⟩
    refine ⟨?_, ?_⟩
    · intro x hx
      obtain ⟨j, hj, rfl⟩ := List.mem_map.1 hx
      rw [← hset j (List.mem_filter.1 hj).1]
      exact m1 _ (hp.subset (List.mem_map_of_mem (List.mem_filter.1 hj).1))
    · have key : ∀ m, (∃ i ∈ js, m = setSize i) ∨ m = 0 → (∀ i ∈ js, setSize i ≤ m) →
          m ∈ (js.filter (fun i => decide (i.vars ≠ []))).map setSize ∨
          m = 0 ∧ (js.filter (fun i => decide (i.vars ≠ []))).map setSize = [] := by
        intro m hm hle
        by_cases h0 : m = 0
        · refine .inr ⟨h0, ?_⟩
          rw [List.map_eq_nil_iff, List.filter_eq_nil_iff]
          intro i hi'
          have := hle i hi'
          by_cases hv : i.vars = []
          · simp [hv]
          · have := hz' i hv; omega
        · rcases hm with ⟨i, hi', rfl⟩ | hm
          · refine .inl (List.mem_map.2 ⟨i, List.mem_filter.2 ⟨hi', ?_⟩, rfl⟩)
            simp only [decide_eq_true_eq]
            exact fun hv => h0 (hz i hv)
          · exact absurd hm h0
      refine key _ ?_ ?_
      · rcases m3 with m3 | ⟨c, hc, m3⟩
        · exact .inr m3
        · obtain ⟨i, hi', rfl⟩ := List.mem_map.1 (hp.symm.subset hc)
          exact .inl ⟨i, hi', by rw [m3, hset i hi']⟩
      · intro i hi'
        rw [← hset i hi']
        exact m1 _ (hp.subset (List.mem_map_of_mem hi'))
  · intro c hc
    obtain ⟨i, hi', a, rfl, b⟩ := r3 c hc
    exact ⟨i, hi', a, hH i hi', b⟩
  · intro c hc
    obtain ⟨i, hi', a, rfl, b⟩ := s3 c hc
    exact ⟨i, hi', a, hH i hi', b⟩

/-- A range `a`-`c` with a tag, the sequence `de` with two variants, of which one twice with different types, and a rule. -/
def doc9 : Doc :=
  { metaE := some []
    data := [{ tag := "range", attrs := [("first-cp", "61"), ("last-cp", "63"), ("tag", "t")], vars := [] },
      { tag := "char", attrs := [("cp", "64 65")], vars := [[("cp", "66"), ("type", "b")], [("cp", "66"), ("type", "a"), ("when", "r")],
        [("cp", "67"), ("type", "b")]] },
      { tag := "char", attrs := [("cp", "68")], vars := [] }]
    rules := some [.mk "rule" [("name", "r")] none [.mk "start" [] none []]] }

def items9 : List C105.Item :=
  [.range 0x61 0x63 { tags := ["t"] } ,
    .char [0x64, 0x65] {} [{ cp := [0x66], type := some "b" }, { cp := [0x66], type := some "a", whenR := some "r" },
      { cp := [0x67], type := some "b" }],
    .char [0x68] {} []]

theorem doc9_means : Means doc9.data items9 := by
  refine .item (.range rfl ?_ ?_ ⟨rfl, rfl, rfl, ?_, ?_⟩)
    (.item (.char rfl ?_ ⟨rfl, rfl, rfl, ?_, ?_⟩ (.cons ⟨?_, rfl, rfl, rfl, rfl, ?_⟩ (.cons ⟨?_, rfl, rfl, rfl, rfl, ?_⟩
      (.cons ⟨?_, rfl, rfl, rfl, rfl, ?_⟩ .nil))))
    (.item (.char rfl ?_ ⟨rfl, rfl, rfl, ?_, ?_⟩ .nil) .nil))
  all_goals first
    | exact spells_iff.2 (by decide +kernel)
    | exact spellsOne_iff.2 (by decide +kernel)
    | exact (listed_iff (by decide +kernel)).2 (by decide +kernel)

theorem doc9_reads : (match parseDoc C106.reader1 [] doc9 with
    | (_, .ok (some _)) => true
    | _ => false) = true := by decide +kernel

/-- The hypotheses are met. -/
example : ∃ cs g, parseDoc C106.reader1 [] doc9 = (cs, .ok (some g)) ∧
    (generateStats g.rules.ruleNames.length g.lgr.rep).codepoints = 5 ∧
    (generateStats g.rules.ruleNames.length g.lgr.rep).mappings = 2 ∧
    (generateStats g.rules.ruleNames.length g.lgr.rep).rules = 1 ∧
    (dget (generateStats g.rules.ruleNames.length g.lgr.rep).byType (some "b")).getD 0 = 2 ∧
    (dget (generateStats g.rules.ruleNames.length g.lgr.rep).byTag "t").getD 0 = 3 := by
  have h := doc9_reads
  rcases hp : parseDoc C106.reader1 [] doc9 with ⟨cs, o⟩
  rw [hp] at h
  match o, h with
  | .ok (some g), h =>
    have hc := document_stats (R := C106.reader1) rfl (by decide +kernel) hp doc9_means
    exact ⟨cs, g, rfl, hc.codepoints.trans (by decide +kernel), hc.mappings.trans (by decide +kernel),
      hc.rules.trans (by decide +kernel), (hc.byType _).trans (by decide +kernel), (hc.byTag _).trans (by decide +kernel)⟩

end Lgr.Props.C160

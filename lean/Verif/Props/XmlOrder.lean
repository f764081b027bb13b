import Verif.Props.XmlText
import Verif.Props.IterIntact

/-!
# C34: the order in which entries are listed

Entries are listed by first code point, then by length, and sequences with the same first code point and
the same length in the order they were added.
-/

namespace Lgr.Props.C34
open Lgr Xml Repertoire LGR

/-- The sequences starting with a code point, in the order they were added. -/
def seqs (r : Repertoire) (i : Nat) : List Seq :=
  ((r.bucket i).map CharObj.cp).filter (fun k => decide (1 < k.length))

/-- A sequence is one of those starting with a code point. -/
def inSeqs (i : Nat) (k : Seq) : Bool := decide (k.head? = some i) && decide (1 < k.length)

theorem bucket_addCharObj {r r' : Repertoire} {c : CharObj} (h : r.addCharObj c = .ok r') (i : Nat) :
    r'.bucket i = r.bucket i ++ (if c.cp.head? = some i then [c] else []) := by
  unfold addCharObj at h
  cases hcp : c.cp with
  | nil => rw [hcp] at h; simp at h
  | cons j t =>
    rw [hcp] at h
    simp only at h
    cases hd : dget r.dict j with
    | none =>
      rw [hd] at h
      simp only [Except.ok.injEq] at h
      subst h
      unfold bucket
      simp only [dget_dset]
      by_cases hj : j = i
      · subst hj; simp [hd]
      · simp [hj]
    | some l =>
      rw [hd] at h
      simp only at h
      split at h
      · simp at h
      simp only [Except.ok.injEq] at h
      subst h
      unfold bucket
      simp only [dget_dset]
      by_cases hj : j = i
      · subst hj; simp [hd]
      · simp [hj]

theorem seqs_addCharObj {r r' : Repertoire} {c : CharObj} (h : r.addCharObj c = .ok r') (i : Nat) :
    seqs r' i = seqs r i ++ [c.cp].filter (inSeqs i) := by
  unfold seqs inSeqs
  rw [bucket_addCharObj h]
  by_cases hi : c.cp.head? = some i
  · by_cases hl : 1 < c.cp.length
    · simp [hi, hl]
    · simp [hi, hl]
  · simp [hi]

theorem seqs_single {r r' : Repertoire} {c : CharObj} (h : r.addCharObj c = .ok r') (hc : c.cp.length = 1)
    (i : Nat) : seqs r' i = seqs r i := by
  rw [seqs_addCharObj h]
  simp [inSeqs, hc]

theorem seqs_putChar (r : Repertoire) (c : CharObj) (i : Nat) : seqs (r.putChar c) i = seqs r i := by
  unfold putChar
  cases hcp : c.cp with
  | nil => rfl
  | cons j t =>
    simp only
    cases hd : dget r.dict j with
    | none => rfl
    | some l =>
      unfold seqs bucket
      simp only [dget_dset]
      by_cases hj : j = i
      · subst hj
        simp only [if_true, Option.getD_some, hd, List.map_map]
        congr 1
        refine List.map_congr_left fun d _ => ?_
        simp only [Function.comp_apply]
        split
        · rename_i h; rw [hcp, h]
        · rfl
      · simp [hj]

theorem seqs_addRangeLoop (f l : Nat) (a : Attrs) (cps : List Nat) (r : Repertoire) (i : Nat) :
    seqs (addRangeLoop f l a r cps).1 i = seqs r i := by
  induction cps generalizing r with
  | nil => rfl
  | cons x cps ih =>
    unfold addRangeLoop
    split
    · rename_i r' h
      rw [ih, seqs_single h rfl]
    · rfl

theorem seqs_insertRanges (a : Attrs) (rs : List (Nat × Nat)) (r : Repertoire) (i : Nat) :
    seqs (insertRanges a r rs).1 i = seqs r i := by
  induction rs generalizing r with
  | nil => rfl
  | cons p rs ih =>
    obtain ⟨f, l⟩ := p
    unfold insertRanges
    split
    · split
      · rfl
      · rename_i r' h
        unfold addChar at h
        rw [if_neg (by simp)] at h
        rw [ih, seqs_single h rfl]
    · have key : seqs (r.addRange f l a true).1 i = seqs r i := by
        unfold Repertoire.addRange
        split
        · rfl
        · simp only [if_true, Bool.false_eq_true, if_false]
          have := seqs_addRangeLoop f l a (cpRange f l) r i
          generalize addRangeLoop f l a r (cpRange f l) = res at this
          obtain ⟨r2, o⟩ := res
          cases o with
          | error e => exact this
          | ok u => exact this
      generalize r.addRange f l a true = res at key
      obtain ⟨r2, o⟩ := res
      cases o with
      | error e => exact key
      | ok u => simp only; rw [ih]; exact key

theorem seqs_addRange (db : UniDb) (g : LGR) (f l : Nat) (o : Opts) (i : Nat) :
    seqs (g.addRange db f l o).1.rep i = seqs g.rep i := by
  rcases C04.addRange_cases db g f l o with ⟨e, he, _⟩ | ⟨cps, _, he⟩
  · rw [he]
  · have : seqs (insertList g.rep cps (mkAttrs o (C50.knownRefs g o))).1 i = seqs g.rep i := by
      unfold insertList
      split
      · rfl
      · exact seqs_insertRanges _ _ _ _
    rw [he]
    generalize insertList g.rep cps (mkAttrs o (C50.knownRefs g o)) = res at this
    obtain ⟨r, out⟩ := res
    cases out <;> exact this

theorem seqs_addCp {db : UniDb} {g g' : LGR} {s : Seq} {o : Opts} (h : g.addCp db (.seq s) o = (g', .ok ()))
    (i : Nat) : seqs g'.rep i = seqs g.rep i ++ [s].filter (inSeqs i) := by
  unfold addCp at h
  split at h
  · simp at h
  rename_i k a hc
  split at h
  · simp at h
  rename_i r hr
  simp only [Prod.mk.injEq, and_true] at h
  subst h
  obtain ⟨h1, -⟩ := C50.addCpChecks_ok.1 hc
  cases h1
  obtain ⟨-, hr'⟩ := C50.addChar_ok hr
  exact seqs_addCharObj hr' i

/-! ## Stable sorting -/

theorem filter_orderedInsert {α : Type} (key : α → Nat) (a : α) (l : List α) (n : Nat) :
    (l.orderedInsert (fun a b => key a ≤ key b) a).filter (fun x => decide (key x = n)) =
      (a :: l).filter (fun x => decide (key x = n)) := by
  induction l with
  | nil => rfl
  | cons b l ih =>
    simp only [List.orderedInsert_cons]
    split
    · rfl
    · rename_i h
      rw [List.filter_cons, ih]
      by_cases ha : key a = n
      · have hb : key b ≠ n := by omega
        simp [List.filter_cons, ha, hb]
      · simp [List.filter_cons, ha]

theorem filter_sortAsc {α : Type} (key : α → Nat) (l : List α) (n : Nat) :
    (sortAsc key l).filter (fun x => decide (key x = n)) = l.filter (fun x => decide (key x = n)) := by
  unfold sortAsc
  induction l with
  | nil => rfl
  | cons a l ih => rw [List.insertionSort_cons, filter_orderedInsert, List.filter_cons, ih, List.filter_cons]

/-- A list in ascending order of the keys is determined by the elements with each key. -/
theorem sorted_eq {α : Type} (key : α → Nat) : ∀ {l m : List α},
    l.Pairwise (fun a b => key a ≤ key b) → m.Pairwise (fun a b => key a ≤ key b) →
    (∀ n, l.filter (fun x => decide (key x = n)) = m.filter (fun x => decide (key x = n))) → l = m
  | [], [], _, _, _ => rfl
  | [], b :: m, _, _, h => by have := h (key b); simp at this
  | a :: l, [], _, _, h => by have := h (key a); simp at this
  | a :: l, b :: m, hl, hm, h => by
    rw [List.pairwise_cons] at hl hm
    have hab : key a = key b := by
      have h1 : a ∈ (b :: m).filter (fun x => decide (key x = key a)) := by rw [← h]; simp
      have h2 : b ∈ (a :: l).filter (fun x => decide (key x = key b)) := by rw [h]; simp
      have h1 := (List.mem_filter.1 h1).1
      have h2 := (List.mem_filter.1 h2).1
      apply le_antisymm
      · rcases List.mem_cons.1 h2 with rfl | h2
        · exact le_refl _
        · exact hl.1 b h2
      · rcases List.mem_cons.1 h1 with rfl | h1
        · exact le_refl _
        · exact hm.1 a h1
    have h0 := h (key a)
    simp only [List.filter_cons, decide_true, if_true, hab] at h0
    have hae := (List.cons.inj h0).1
    subst hae
    congr 1
    refine sorted_eq key hl.2 hm.2 fun n => ?_
    have := h n
    simp only [List.filter_cons] at this
    split at this
    · exact (List.cons.inj this).2
    · exact this

/-! ## What the iteration lists -/

/-- An entry that is listed: one that is in no range, or the first of its range. -/
def listed (c : CharObj) : Bool :=
  match c.range with
  | none => true
  | some (f, _) => decide (c.cp = [f])

theorem listed_iff {c : CharObj} : listed c = true ↔ ∀ f l, c.range = some (f, l) → c.cp = [f] := by
  unfold listed
  cases h : c.range with
  | none => simp
  | some p =>
    obtain ⟨f, l⟩ := p
    simp only [decide_eq_true_eq, Option.some.injEq, Prod.mk.injEq]
    constructor
    · rintro h _ _ ⟨rfl, rfl⟩; exact h
    · intro h; exact h f l ⟨rfl, rfl⟩

theorem eq_filter {α : Type} {l m : List α} (h : l.Sublist m) (hn : m.Nodup) {p : α → Bool}
    (hm : ∀ x, x ∈ l ↔ x ∈ m ∧ p x = true) : l = m.filter p := by
  induction h with
  | slnil => rfl
  | cons a h ih =>
    rename_i l m
    rw [List.nodup_cons] at hn
    have ha : a ∉ l := fun hx => hn.1 (h.subset hx)
    have hp : ¬ p a = true := fun hp => ha ((hm a).2 ⟨by simp, hp⟩)
    rw [List.filter_cons_of_neg hp]
    refine ih hn.2 fun x => ?_
    rw [hm]
    constructor
    · rintro ⟨h1, h2⟩
      rcases List.mem_cons.1 h1 with rfl | h1
      · exact absurd h2 hp
      · exact ⟨h1, h2⟩
    · rintro ⟨h1, h2⟩; exact ⟨List.mem_cons_of_mem _ h1, h2⟩
  | cons_cons a h ih =>
    rename_i l m
    rw [List.nodup_cons] at hn
    have hp : p a = true := ((hm a).1 (by simp)).2
    rw [List.filter_cons_of_pos hp]
    congr 1
    refine ih hn.2 fun x => ?_
    have := hm x
    simp only [List.mem_cons] at this
    constructor
    · intro hx
      obtain ⟨h1, h2⟩ := this.1 (.inr hx)
      rcases h1 with rfl | h1
      · exact absurd (h.subset hx) hn.1
      · exact ⟨h1, h2⟩
    · rintro ⟨h1, h2⟩
      rcases this.2 ⟨.inr h1, h2⟩ with rfl | h3
      · exact absurd h1 hn.1
      · exact h3

theorem iter_eq {r : Repertoire} (h : WF r) (hi : Intact r) :
    r.iter = (sortAsc id (r.dict.map Prod.fst)).flatMap
      (fun i => (sortAsc CharObj.len (r.bucket i)).filter listed) := by
  have h1 : r.iter = (C03.full r (sortAsc id (r.dict.map Prod.fst))).filter listed := by
    refine eq_filter (C03.iterKeys_sublist r none _) (List.Nodup.of_map _ (C03.full_nodup h)) fun c => ?_
    have := mem_iter_intact h hi c
    unfold iter at this
    rw [this, C03.mem_full h, getChar_ok, listed_iff]
  rw [h1]
  unfold C03.full
  rw [List.filter_flatMap]

/-- The entries listed with a first code point. -/
def part (r : Repertoire) (i : Nat) : List Seq :=
  ((sortAsc CharObj.len (r.bucket i)).filter listed).map CharObj.cp

theorem iter_cps {r : Repertoire} (h : WF r) (hi : Intact r) :
    r.iter.map CharObj.cp = (sortAsc id (r.dict.map Prod.fst)).flatMap (part r) := by
  rw [iter_eq h hi, List.map_flatMap]
  rfl

theorem part_mem {r : Repertoire} (h : WF r) {i : Nat} {k : Seq} (hk : k ∈ part r i) :
    k.head? = some i ∧ ∃ c, r.lookup k = some c ∧ listed c = true := by
  unfold part at hk
  obtain ⟨c, hc, rfl⟩ := List.mem_map.1 hk
  obtain ⟨hc, hl⟩ := List.mem_filter.1 hc
  have hb := (mem_sortAsc _).1 hc
  obtain ⟨p, hp, rfl, hpc⟩ := bucket_mem hb
  obtain ⟨t, ht⟩ := h.filed p hp c hpc
  refine ⟨by rw [ht]; rfl, c, ?_, hl⟩
  rw [lookup_eq_some h]
  exact ⟨p.1, t, ht, hb, rfl⟩

theorem part_sorted (r : Repertoire) (i : Nat) : (part r i).Pairwise (fun a b => a.length ≤ b.length) := by
  unfold part
  rw [List.pairwise_map]
  exact ((sortAsc_sorted CharObj.len (r.bucket i)).sublist List.filter_sublist)

theorem part_nodup {r : Repertoire} (h : WF r) (i : Nat) : (part r i).Nodup := by
  unfold part
  refine List.Nodup.sublist ((List.filter_sublist).map _) ?_
  refine (((sortAsc_perm CharObj.len (r.bucket i)).map _).nodup_iff).2 ?_
  unfold bucket
  cases hd : dget r.dict i with
  | none => simp
  | some l => exact h.uniq _ (mem_of_dget hd)

theorem part_long {r : Repertoire} (h : WF r) (i n : Nat) (hn : 1 < n) :
    (part r i).filter (fun k => decide (k.length = n)) = (seqs r i).filter (fun k => decide (k.length = n)) := by
  unfold part seqs
  rw [List.filter_map, List.filter_filter, List.filter_map, List.filter_map, List.filter_filter]
  have h1 : (sortAsc CharObj.len (r.bucket i)).filter
      (fun a => ((fun k : Seq => decide (k.length = n)) ∘ CharObj.cp) a && listed a) =
      (sortAsc CharObj.len (r.bucket i)).filter (fun a => decide (a.len = n)) := by
    refine List.filter_congr fun c hc => ?_
    obtain ⟨p, hp, hpi, hpc⟩ := bucket_mem ((mem_sortAsc _).1 hc)
    have hw := h.chars p hp c hpc
    simp only [Function.comp_apply, CharObj.len]
    by_cases hl : c.cp.length = n
    · have : listed c = true := by
        rw [listed_iff]
        intro f l hr
        obtain ⟨x, hx, -⟩ := hw.rangeCp f l hr
        rw [hx] at hl
        simp at hl
        omega
      simp [hl, this]
    · simp [hl]
  rw [h1, filter_sortAsc]
  congr 1
  refine List.filter_congr fun c _ => ?_
  simp only [Function.comp_apply, CharObj.len]
  by_cases hl : c.cp.length = n
  · simp [hl, hn]
  · simp [hl]

theorem eq_of_single {l m : List Seq} (hl : l.Nodup) (hm : m.Nodup) {a : Seq} (h1 : ∀ x ∈ l, x = a)
    (h2 : ∀ x ∈ m, x = a) (h : a ∈ l ↔ a ∈ m) : l = m := by
  have key : ∀ l : List Seq, l.Nodup → (∀ x ∈ l, x = a) → l = if a ∈ l then [a] else [] := by
    intro l hl h1
    cases l with
    | nil => simp
    | cons x l =>
      have := h1 x (by simp)
      subst this
      cases l with
      | nil => simp
      | cons y l =>
        have := h1 y (by simp)
        subst this
        simp at hl
  rw [key l hl h1, key m hm h2]
  simp only [h]

theorem mem_part {r : Repertoire} (h : WF r) {i : Nat} {t : Seq} {c : CharObj}
    (hc : r.lookup (i :: t) = some c) (hl : listed c = true) : (i :: t) ∈ part r i := by
  obtain ⟨j, u, he, hb, hcp⟩ := (lookup_eq_some h).1 hc
  injection he with hi ht
  subst hi
  unfold part
  refine List.mem_map.2 ⟨c, List.mem_filter.2 ⟨(mem_sortAsc _).2 hb, hl⟩, lookup_cp hc⟩

/-- Two repertoires with intact ranges are listed in the same order, if one has the same entries as the
other, and its sequences were added in the order of the other. -/
theorem iter_cps_eq {r q : Repertoire} (hr : WF r) (hri : Intact r) (hq : WF q) (hqi : Intact q)
    (h1 : ∀ k c, r.lookup k = some c → ∃ d, q.lookup k = some d ∧ d.range = c.range)
    (h2 : ∀ k d, q.lookup k = some d → ∃ c, r.lookup k = some c ∧ d.range = c.range)
    (hs : ∀ i, seqs q i = (r.iter.map CharObj.cp).filter (inSeqs i)) :
    q.iter.map CharObj.cp = r.iter.map CharObj.cp := by
  have hkeys : ∀ {r : Repertoire}, WF r → ∀ i, i ∈ r.dict.map Prod.fst ↔ ∃ t c, r.lookup (i :: t) = some c := by
    intro r h i
    constructor
    · intro hi
      obtain ⟨l, hl⟩ := Option.isSome_iff_exists.1 (dget_isSome.2 hi)
      have hm := mem_of_dget hl
      obtain ⟨c, hc⟩ := List.exists_mem_of_ne_nil _ (h.nonempty _ hm)
      obtain ⟨t, ht⟩ := h.filed _ hm c hc
      refine ⟨t, c, (lookup_eq_some h).2 ⟨i, t, rfl, ?_, ht⟩⟩
      unfold bucket; rw [hl]; exact hc
    · rintro ⟨t, c, hc⟩
      obtain ⟨j, u, he, hb, hcp⟩ := (lookup_eq_some h).1 hc
      injection he with hi ht
      subst hi
      obtain ⟨p, hp, rfl, -⟩ := bucket_mem hb
      exact List.mem_map.2 ⟨p, hp, rfl⟩
  have hsame : sortAsc id (q.dict.map Prod.fst) = sortAsc id (r.dict.map Prod.fst) := by
    have hp : (sortAsc id (q.dict.map Prod.fst)).Perm (sortAsc id (r.dict.map Prod.fst)) := by
      refine ((sortAsc_perm _ _).trans ((List.perm_ext_iff_of_nodup hq.keys hr.keys).2 fun i => ?_)).trans
        (sortAsc_perm _ _).symm
      rw [hkeys hq, hkeys hr]
      constructor
      · rintro ⟨t, d, hd⟩
        obtain ⟨c, hc, -⟩ := h2 _ d hd
        exact ⟨t, c, hc⟩
      · rintro ⟨t, d, hd⟩
        obtain ⟨c, hc, -⟩ := h1 _ d hd
        exact ⟨t, c, hc⟩
    exact hp.eq_of_pairwise (fun a b _ _ h1 h2 => le_antisymm h1 h2) (sortAsc_sorted _ _) (sortAsc_sorted _ _)
  have hlist : ∀ c d : CharObj, c.cp = d.cp → d.range = c.range → listed c = listed d := by
    intro c d e1 e2
    unfold listed
    rw [e1, e2]
  have hpart : ∀ i, part q i = part r i := by
    intro i
    have hrp : (r.iter.map CharObj.cp).filter (fun k => decide (k.head? = some i)) = part r i := by
      rw [iter_cps hr hri, List.filter_flatMap]
      have hf : ∀ j, (part r j).filter (fun k => decide (k.head? = some i)) = if j = i then part r i else [] := by
        intro j
        by_cases hj : j = i
        · subst hj
          rw [if_pos rfl, List.filter_eq_self]
          intro k hk
          simp [(part_mem hr hk).1]
        · rw [if_neg hj, List.filter_eq_nil_iff]
          intro k hk
          simp [(part_mem hr hk).1, hj]
      simp only [hf]
      by_cases hi : i ∈ r.dict.map Prod.fst
      · exact flatMap_single (((sortAsc_perm _ _).nodup_iff).2 hr.keys) ((mem_sortAsc _).2 hi) _
      · have hb : part r i = [] := by
          unfold part bucket
          rw [dget_eq_none.2 hi]
          rfl
        rw [hb]
        simp
    refine sorted_eq List.length (part_sorted q i) (part_sorted r i) fun n => ?_
    by_cases hn : 1 < n
    · rw [part_long hq i n hn, hs, ← hrp, List.filter_filter, List.filter_filter]
      refine List.filter_congr fun k _ => ?_
      unfold inSeqs
      by_cases hk : k.length = n
      · simp [hk, hn]
      · simp [hk]
    · have hone : ∀ {r : Repertoire}, WF r → ∀ k ∈ (part r i).filter (fun k => decide (k.length = n)), k = [i] := by
        intro r h k hk
        obtain ⟨hk, hl⟩ := List.mem_filter.1 hk
        obtain ⟨h3, -⟩ := part_mem h hk
        have hl : k.length = n := by simpa using hl
        cases k with
        | nil => simp at h3
        | cons a k =>
          cases k with
          | nil => simp at h3; rw [h3]
          | cons b k => simp at hl; omega
      refine eq_of_single ((part_nodup hq i).filter _) ((part_nodup hr i).filter _) (hone hq) (hone hr) ?_
      rw [List.mem_filter, List.mem_filter]
      refine and_congr_left fun _ => ?_
      constructor
      · intro hk
        obtain ⟨-, d, hd, hl⟩ := part_mem hq hk
        obtain ⟨c, hc, e⟩ := h2 _ d hd
        exact mem_part hr hc (by rw [hlist c d ((lookup_cp hc).trans (lookup_cp hd).symm) e]; exact hl)
      · intro hk
        obtain ⟨-, c, hc, hl⟩ := part_mem hr hk
        obtain ⟨d, hd, e⟩ := h1 _ c hc
        exact mem_part hq hd (by rw [← hlist c d ((lookup_cp hc).trans (lookup_cp hd).symm) e]; exact hl)
  rw [iter_cps hq hqi, iter_cps hr hri, hsame]
  congr 1
  funext i
  exact hpart i

end Lgr.Props.C34

import Verif.Props.LgrTags
import Verif.Props.Validate
import Mathlib.Data.Set.Card

/-!
# What iterating over a repertoire with intact ranges lists

Used by the properties of the validation suite.
-/

namespace Lgr.Props
open Lgr Repertoire C26

theorem Intact.toC03 {r : Repertoire} (hwf : WF r) (h : Intact r) : C03.Intact (C01.abs r) := by
  refine ⟨?_, ?_, ?_, ?_⟩
  · rintro ⟨f, l⟩ hp
    exact (h.full f l (by simpa [C01.abs] using hp)).1
  · simpa [C01.abs] using h.nodup
  · rintro ⟨f, l⟩ hp x h1 h2
    obtain ⟨_, a, ha⟩ := h.full f l (by simpa [C01.abs] using hp)
    exact ⟨_, by rw [C01.abs_map, ha x h1 h2]; rfl, rfl⟩
  · intro k e p hk hp
    rw [C01.abs_map] at hk
    obtain ⟨c, hc, rfl⟩ := Option.map_eq_some_iff.1 hk
    refine ⟨by simpa [C01.abs] using h.marked k c p hc hp, ?_⟩
    obtain ⟨x, hx, h1, h2⟩ := (lookup_charWF hwf hc).rangeCp p.1 p.2 hp
    have := lookup_cp hc
    exact ⟨x, by rw [← this, hx], h1, h2⟩

theorem iter_nodup {r : Repertoire} (h : WF r) : (r.iter.map CharObj.cp).Nodup :=
  (C03.full_nodup h).sublist ((C03.iterKeys_sublist r none _).map _)

/-- With intact ranges, iteration lists the entries that are in no range and the first of each
range. -/
theorem mem_iter_intact {r : Repertoire} (h : WF r) (hi : Intact r) (c : CharObj) :
    c ∈ r.iter ↔ r.lookup c.cp = some c ∧ ∀ f l, c.range = some (f, l) → c.cp = [f] := by
  constructor
  · intro hc
    have hl := iter_mem h hc
    refine ⟨hl, ?_⟩
    intro f l hr
    have hkeys : ∀ j, (∃ d, r.lookup [j] = some d) → j ∈ sortAsc id (r.dict.map Prod.fst) := by
      rintro j ⟨d, hd⟩
      obtain ⟨_, _, he, hm, _⟩ := (lookup_eq_some h).1 hd
      injection he with he _; subst he
      obtain ⟨p, hp, hpi, _⟩ := bucket_mem hm
      exact (mem_sortAsc _).2 (List.mem_map.2 ⟨p, hp, hpi⟩)
    exact ((C03.iterKeys_intact h (hi.toC03 h) c f l hl hr _ (C03.keys_sorted h) none
      (fun _ _ j _ hd => hkeys j hd) (by simp)
      (by rintro f' l' ⟨d, hd, _⟩ hn _; exact absurd (hkeys f' ⟨d, hd⟩) hn)).1 hc).1
  · rintro ⟨hl, hr⟩
    cases hrg : c.range with
    | none => exact mem_iter h hl hrg
    | some p =>
      obtain ⟨f, l⟩ := p
      have hkeys : ∀ j, (∃ d, r.lookup [j] = some d) → j ∈ sortAsc id (r.dict.map Prod.fst) := by
        rintro j ⟨d, hd⟩
        obtain ⟨_, _, he, hm, _⟩ := (lookup_eq_some h).1 hd
        injection he with he _; subst he
        obtain ⟨p, hp, hpi, _⟩ := bucket_mem hm
        exact (mem_sortAsc _).2 (List.mem_map.2 ⟨p, hp, hpi⟩)
      have hcp := hr f l hrg
      exact (C03.iterKeys_intact h (hi.toC03 h) c f l hl hrg _ (C03.keys_sorted h) none
        (fun _ _ j _ hd => hkeys j hd) (by simp)
        (by rintro f' l' ⟨d, hd, _⟩ hn _; exact absurd (hkeys f' ⟨d, hd⟩) hn)).2
        ⟨hcp, hkeys f ⟨c, by rw [← hcp]; exact hl⟩⟩

/-- The entries a listed one stands for. -/
def members (c : CharObj) : List CharObj :=
  match c.range with
  | some (f, l) => (cpRange f l).map (fun x => { c with cp := [x] })
  | none => [c]

theorem mem_members_iter {r : Repertoire} (h : WF r) (hi : Intact r) (d : CharObj) :
    d ∈ r.iter.flatMap members ↔ r.lookup d.cp = some d := by
  rw [List.mem_flatMap]
  constructor
  · rintro ⟨c, hc, hd⟩
    obtain ⟨hl, hcp⟩ := (mem_iter_intact h hi c).1 hc
    unfold members at hd
    split at hd
    · rename_i f l hrg
      obtain ⟨x, hx, rfl⟩ := List.mem_map.1 hd
      obtain ⟨h1, h2⟩ := mem_cpRange.1 hx
      obtain ⟨hfl, a, ha⟩ := hi.full f l (hi.marked _ c _ hl hrg)
      have h0 := ha f (le_refl _) (le_of_lt hfl)
      rw [hcp f l hrg, h0] at hl
      rw [← Option.some.inj hl]
      exact ha x h1 h2
    · rw [List.mem_singleton.1 hd]; exact hl
  · intro hl
    cases hrg : d.range with
    | none => exact ⟨d, mem_iter h hl hrg, by simp [members, hrg]⟩
    | some p =>
      obtain ⟨f, l⟩ := p
      obtain ⟨x, hx, h1, h2⟩ := (lookup_charWF h hl).rangeCp f l hrg
      obtain ⟨hfl, a, ha⟩ := hi.full f l (hi.marked _ d _ hl hrg)
      have h0 := ha f (le_refl _) (le_of_lt hfl)
      have hd : d = { cp := [x], range := some (f, l), attrs := a } := by
        have := ha x h1 h2
        rw [hx, this] at hl
        exact (Option.some.inj hl).symm
      refine ⟨{ cp := [f], range := some (f, l), attrs := a }, ?_, ?_⟩
      · refine (mem_iter_intact h hi _).2 ⟨h0, ?_⟩
        intro f' l' he
        simp only [Option.some.injEq, Prod.mk.injEq] at he
        rw [he.1]
      · simp only [members, List.mem_map]
        exact ⟨x, mem_cpRange.2 ⟨h1, h2⟩, hd.symm⟩

/-- Listing the members of what is listed gives each entry of the repertoire once. -/
theorem members_nodup {r : Repertoire} (h : WF r) (hi : Intact r) :
    (r.iter.flatMap members).Nodup := by
  rw [List.nodup_flatMap]
  constructor
  · intro c hc
    unfold members
    split
    · refine (cpRange_nodup _ _).map ?_
      intro x y hxy
      simpa using hxy
    · simp
  · have hn : r.iter.Nodup := List.Nodup.of_map _ (iter_nodup h)
    refine hn.imp_of_mem ?_
    intro c d hc hd hne e hec hed
    obtain ⟨hcl, hcp⟩ := (mem_iter_intact h hi c).1 hc
    obtain ⟨hdl, hdp⟩ := (mem_iter_intact h hi d).1 hd
    have key : ∀ c, r.lookup c.cp = some c → (∀ f l, c.range = some (f, l) → c.cp = [f]) →
        e ∈ members c → c.range = e.range ∧ (e.range = none → e = c) ∧
          ∀ f l, e.range = some (f, l) → c.cp = [f] := by
      intro c _ hcp hm
      unfold members at hm
      split at hm
      · rename_i f l hrg
        obtain ⟨x, _, rfl⟩ := List.mem_map.1 hm
        exact ⟨rfl, by simp [hrg], fun f l he => hcp f l he⟩
      · rw [List.mem_singleton.1 hm]
        exact ⟨rfl, fun _ => rfl, fun f l he => hcp f l he⟩
    obtain ⟨c1, c2, c3⟩ := key c hcl hcp hec
    obtain ⟨d1, d2, d3⟩ := key d hdl hdp hed
    cases her : e.range with
    | none => exact hne ((c2 her).symm.trans (d2 her))
    | some p =>
      have hcd : c.cp = d.cp := (c3 p.1 p.2 her).trans (d3 p.1 p.2 her).symm
      rw [hcd, hdl] at hcl
      exact hne (Option.some.inj hcl).symm

/-- The number of entries with a property shared by all the members of a range is the sum over the
listed ones, a range counting as many as it has members. -/
theorem count_iter {r : Repertoire} (h : WF r) (hi : Intact r) (P : CharObj → Bool)
    (hP : ∀ c, ∀ d ∈ members c, P d = P c) :
    Set.ncard {k : Seq | ∃ c, r.lookup k = some c ∧ P c = true}
      = (r.iter.map (fun c => if P c then (members c).length else 0)).sum := by
  have hset : {k : Seq | ∃ c, r.lookup k = some c ∧ P c = true}
      = ↑((((r.iter.flatMap members).filter P).map CharObj.cp).toFinset) := by
    ext k
    simp only [Set.mem_setOf_eq, List.coe_toFinset, List.mem_map, List.mem_filter,
      mem_members_iter h hi]
    constructor
    · rintro ⟨c, hc, hp⟩
      have := lookup_cp hc
      exact ⟨c, ⟨by rw [this]; exact hc, hp⟩, this⟩
    · rintro ⟨c, ⟨hc, hp⟩, rfl⟩
      exact ⟨c, hc, hp⟩
  have hnd : (((r.iter.flatMap members).filter P).map CharObj.cp).Nodup := by
    refine List.Nodup.map_on ?_ ((members_nodup h hi).filter _)
    intro c hc d hd hcd
    have h1 := (mem_members_iter h hi c).1 (List.mem_of_mem_filter hc)
    have h2 := (mem_members_iter h hi d).1 (List.mem_of_mem_filter hd)
    rw [hcd, h2] at h1
    exact (Option.some.inj h1).symm
  rw [hset, Set.ncard_coe_finset, List.toFinset_card_of_nodup hnd, List.length_map]
  induction r.iter with
  | nil => rfl
  | cons c l ih =>
    rw [List.flatMap_cons, List.filter_append, List.length_append, ih, List.map_cons, List.sum_cons]
    congr 1
    by_cases hp : P c
    · rw [if_pos hp, List.filter_eq_self.2]
      intro d hd; rw [hP c d hd, hp]
    · rw [if_neg hp, List.filter_eq_nil_iff.2]
      · rfl
      · intro d hd; rw [hP c d hd]; exact hp

end Lgr.Props

import Verif.Props.DocVariants
import Verif.Props.DocLabelsEx

/-!
# C111: corollary and examples
-/

namespace Lgr.Props.C111
open Lgr Xml Text Repertoire LGR RulesXml C101 C103 DocXml C105 C106 C107

/-- **C111** (partial) With invalid variants asked for, and no restriction to some labels, the variant labels listed are
exactly those the document describes. -/
theorem listed_labels_partial {R : Reader} {cs : Rfc7940.Results} {d : Doc} {g : Loaded} (h : Clear R cs d g)
    {is : List C105.Item} (hm : Means d.data is) (hready : Ready (d.rules.getD []) is)
    {as : List Action} (has : Acts (d.rules.getD []) as) (htidy : ActsTidy (d.rules.getD []))
    (hacts : ActsReady (d.rules.getD []) as)
    (hso : C106.Inhabited R.props is (d.rules.getD [])) {env : FullEnv} (hE : FullFaithful R.props g.rules.rs env)
    (hb : NoBeginning is) {label : Seq} (hp : C106.Plain label) (hne : label ≠ []) (hroom : Room is label) :
    ∃ out, env.computeDisposition g.lgr.rep g.rules.actions true { includeInvalid := true } label = .ok out ∧
      ∀ x, x ∈ out.map FullEnv.Item.cps ↔ x = label ∨ ∃ us, Replaces R.props is (d.rules.getD []) label us ∧ x = after us := by
  obtain ⟨its, last, h1, h2, h3, h4, -⟩ := document_variants_partial h hm hready has htidy hacts hso hE hb hp hne hroom
    (o := { includeInvalid := true }) rfl
  refine ⟨_, h1, fun x => ?_⟩
  rw [List.map_append, List.mem_append]
  constructor
  · rintro (hx | hx)
    · obtain ⟨it, hit, rfl⟩ := List.mem_map.1 hx
      obtain ⟨-, -, us, k1, -, k2, -⟩ := h2 it hit
      exact .inr ⟨us, k1, k2⟩
    · simp only [List.map_cons, List.map_nil, List.mem_singleton] at hx
      exact .inl (hx.trans h4)
  · rintro (rfl | ⟨us, k1, rfl⟩)
    · exact .inr (by simp [h4])
    · by_cases hl : after us = label
      · exact .inr (by simp [h4, hl])
      · rcases h3 us k1 hl (fun h => absurd rfl h) with ⟨it, hit, e⟩ | ⟨e, -⟩
        · exact .inl (List.mem_map.2 ⟨it, hit, e⟩)
        · cases e

/-! ## Example -/

/-- `a` has the variant `e`, behind a virama. -/
def doc4 : Doc :=
  { metaE := some [{ tag := "version", text := .plain "1" }]
    data :=
      [{ tag := "char", attrs := [("cp", "0061")],
         vars := [[("cp", "0065"), ("type", "blocked"), ("when", "follows-virama")]] },
       { tag := "char", attrs := [("cp", "0065")] },
       { tag := "char", attrs := [("cp", "094D"), ("tag", "virama")] }]
    rules := some C103.demo }

def itemA : C105.Item := .char [0x61] {} [{ cp := [0x65], type := some "blocked", whenR := some "follows-virama" }]
def itemE : C105.Item := .char [0x65] {} []
def itemV : C105.Item := .char [0x94D] { tags := ["virama"] } []
def items4 : List C105.Item := [itemA, itemE, itemV]

theorem doc4_reads : (match parseDoc reader1 [] doc4 with
    | (cs, .ok (some _)) => decide (dget cs "parse_xml" ≠ some false)
    | _ => false) = true := by decide +kernel

theorem doc4_means : Means doc4.data items4 := by
  refine .item (.char rfl ?_ ⟨rfl, rfl, rfl, ?_, ?_⟩ (.cons ⟨?_, rfl, rfl, rfl, rfl, ?_⟩ .nil))
    (.item (.char rfl ?_ ⟨rfl, rfl, rfl, ?_, ?_⟩ .nil) (.item (.char rfl ?_ ⟨rfl, rfl, rfl, ?_, ?_⟩ .nil) .nil))
  all_goals first
    | exact spells_iff.2 (by decide +kernel)
    | exact (listed_iff (by decide +kernel)).2 (by decide +kernel)

theorem doc4_clear : ∃ g, Clear reader1 [] doc4 g := by
  have h := doc4_reads
  rcases hp : parseDoc reader1 [] doc4 with ⟨cs, o⟩
  rw [hp] at h
  match o, h with
  | .ok (some g), h =>
    exact ⟨g, rfl, ⟨cs, hp, by simpa using h⟩, by decide +kernel, C103.demo_read.distinct, C103.demo_read.fine⟩

theorem tagged4 {t : String} {x : Nat} : Tagged items4 t x ↔ t = "virama" ∧ x = 0x94D := by
  unfold Tagged items4
  constructor
  · rintro ⟨i, hi, ht, k, hk, hx⟩
    simp only [List.mem_cons, List.not_mem_nil, or_false] at hi
    rcases hi with rfl | rfl | rfl
    all_goals simp only [itemA, itemE, itemV, C105.Item.attrs, C105.Item.Has, List.mem_cons, List.not_mem_nil, or_false] at ht hk
    subst hk
    simp at hx
    exact ⟨ht, hx⟩
  · rintro ⟨rfl, rfl⟩
    exact ⟨itemV, by simp, by simp [itemV, C105.Item.attrs], [0x94D], rfl, by simp⟩

theorem ready4 : Ready C103.demo items4 := by
  intro i hi
  simp only [items4, List.mem_cons, List.not_mem_nil, or_false] at hi
  rcases hi with rfl | rfl | rfl
  · refine ⟨by simp [itemA, C105.Item.attrs], ?_⟩
    intro v hv r hr
    simp only [itemA, C105.Item.vars, List.mem_cons, List.not_mem_nil, or_false] at hv
    subst hv
    simp at hr
    rw [← hr]
    exact usable1
  · simp [itemE, C105.Item.attrs, C105.Item.vars]
  · simp [itemV, C105.Item.attrs, C105.Item.vars]

theorem single4 : ∀ i ∈ items4, ∀ k, i.Has k → k.length = 1 := by
  intro i hi k hk
  simp only [items4, List.mem_cons, List.not_mem_nil, or_false] at hi
  rcases hi with rfl | rfl | rfl <;> (simp only [itemA, itemE, itemV, C105.Item.Has] at hk; rw [hk]; rfl)

theorem noBeginning4 : NoBeginning items4 := by
  intro i hi j hj k k' hk hk' hkk
  exact hkk.eq_of_length ((single4 i hi k hk).trans (single4 j hj k' hk').symm)

theorem room4 {label : Seq} (hp : C106.Plain label) : Room items4 label := by
  refine room_of_short hp fun i hi k hk v hv => ?_
  rw [single4 i hi k hk]
  simp only [items4, List.mem_cons, List.not_mem_nil, or_false] at hi
  rcases hi with rfl | rfl | rfl
  · simp only [itemA, C105.Item.vars, List.mem_cons, List.not_mem_nil, or_false] at hv
    subst hv
    exact ⟨le_refl _, by decide⟩
  · simp [itemE, C105.Item.vars] at hv
  · simp [itemV, C105.Item.vars] at hv

/-- All hypotheses are met together, also with a faithful evaluation of rules. -/
example : ∃ (g : Loaded) (env : FullEnv), Clear reader1 [] doc4 g ∧ Means doc4.data items4 ∧
    Ready (doc4.rules.getD []) items4 ∧ Acts (doc4.rules.getD []) actions1 ∧ ActsTidy (doc4.rules.getD []) ∧
    ActsReady (doc4.rules.getD []) actions1 ∧ C106.Inhabited reader1.props items4 (doc4.rules.getD []) ∧
    FullFaithful reader1.props g.rules.rs env ∧ NoBeginning items4 ∧ C106.Plain [0x94D, 0x61] ∧
    Room items4 [0x94D, 0x61] := by
  obtain ⟨g, hg⟩ := doc4_clear
  obtain ⟨env, -, he⟩ := full_faithful_exists (common_of hg doc4_means).1 (fun _ => "Latin")
  have hp : C106.Plain [0x94D, 0x61] := by unfold C106.Plain; decide
  exact ⟨g, env, hg, doc4_means, ready4, acts1, tidy1, actsReady1, inhabited_demo tagged4, he, noBeginning4, hp, room4 hp⟩

/-- Behind a virama, `e` is written for `a`. -/
theorem replaces4 {g : Loaded} (hg : Clear reader1 [] doc4 g) : Replaces reader1.props items4 C103.demo [0x94D, 0x61]
    [⟨itemV, [0x94D], none⟩, ⟨itemA, [0x61], some { cp := [0x65], type := some "blocked", whenR := some "follows-virama" }⟩] := by
  refine ⟨rfl, ?_, ?_⟩
  · intro u hu
    simp only [List.mem_cons, List.not_mem_nil, or_false] at hu
    rcases hu with rfl | rfl <;> exact ⟨by simp [items4], rfl⟩
  · intro pre u post he v hv
    match pre, he with
    | [], he =>
      cases he
      cases hv
    | [_], he =>
      cases he
      cases hv
      refine ⟨by simp [itemA, C105.Item.vars], fun r hr => ?_, fun r hr => by cases hr⟩
      cases hr
      exact (applies_demo (common_of hg doc4_means).1 tagged4 (by unfold C106.Plain; decide) (by decide)).2 ⟨0, rfl, rfl⟩
    | _ :: _ :: [], he => simp at he

/-- The variant is listed behind a virama, and is not listed without one. -/
example {g : Loaded} (hg : Clear reader1 [] doc4 g) {env : FullEnv} (hE : FullFaithful reader1.props g.rules.rs env) :
    (∃ out, env.computeDisposition g.lgr.rep g.rules.actions true { includeInvalid := true } [0x94D, 0x61] = .ok out ∧
      [0x94D, 0x65] ∈ out.map FullEnv.Item.cps) ∧
    ∃ out, env.computeDisposition g.lgr.rep g.rules.actions true { includeInvalid := true } [0x61] = .ok out ∧
      ∀ x ∈ out.map FullEnv.Item.cps, x = [0x61] := by
  have key := fun label hp hne => listed_labels_partial hg doc4_means ready4 acts1 tidy1 actsReady1
    (inhabited_demo tagged4) hE noBeginning4 (label := label) hp hne (room4 hp)
  constructor
  · obtain ⟨out, h1, h2⟩ := key [0x94D, 0x61] (by unfold C106.Plain; decide) (by decide)
    exact ⟨out, h1, (h2 _).2 (.inr ⟨_, replaces4 hg, rfl⟩)⟩
  · obtain ⟨out, h1, h2⟩ := key [0x61] (by unfold C106.Plain; decide) (by decide)
    refine ⟨out, h1, fun x hx => ?_⟩
    rcases (h2 x).1 hx with rfl | ⟨us, hus, rfl⟩
    · rfl
    · have hcat := hus.concat
      match us, hus, hcat with
      | [], _, hcat => simp [before] at hcat
      | u :: us, hus, hcat =>
        have hul := single4 _ (hus.has u (by simp)).1 _ (hus.has u (by simp)).2
        have hus0 : us = [] := by
          cases us with
          | nil => rfl
          | cons w us =>
            have hwl := single4 _ (hus.has w (by simp)).1 _ (hus.has w (by simp)).2
            have := congrArg List.length hcat
            simp only [before, List.flatMap_cons, List.length_append, List.length_cons, List.length_nil] at this
            omega
        subst hus0
        simp only [before, List.flatMap_cons, List.flatMap_nil, List.append_nil] at hcat
        cases hb : u.by_ with
        | none => simp [after, Use.out, hb, hcat]
        | some v =>
          obtain ⟨k1, k2⟩ := hus.used [] u [] rfl v hb
          exfalso
          obtain ⟨hi, hk⟩ := hus.has u (by simp)
          simp only [items4, List.mem_cons, List.not_mem_nil, or_false] at hi
          rcases hi with e | e | e
          · rw [e] at k1
            simp only [itemA, C105.Item.vars, List.mem_cons, List.not_mem_nil, or_false] at k1
            subst k1
            obtain ⟨m, h6, -⟩ := (applies_demo (common_of hg doc4_means).1 tagged4 (by unfold C106.Plain; decide)
              (by decide)).1 (k2.1 "follows-virama" rfl)
            simp [after] at h6
          · rw [e] at k1; simp [itemE, C105.Item.vars] at k1
          · rw [e] at k1; simp [itemV, C105.Item.vars] at k1

end Lgr.Props.C111

import Verif.Props.DocChecks
import Verif.Props.PopulateIndex

/-!
# C156: the collisions of labels under a document which passes the checks
-/

namespace Lgr.Props.C156
open Lgr Xml Text Repertoire LGR RulesXml FullEnv C103 DocXml C105 C106 C107 C152 C153
open C101 hiding before after
open C111 hiding VarDisp OwnDisp varDisp_of own_of
open Validate

/-! ## Specification -/

/-- No variant of the document has a condition. -/
def NoConditions (is : List C105.Item) : Prop := ∀ i ∈ is, ∀ v ∈ i.vars, v.whenR = none ∧ v.notWhenR = none

/-- The sequences are the same, or the document has one as a variant of the other. -/
def Same (is : List C105.Item) (x y : Seq) : Prop := x = y ∨ ∃ v, C155.Maps is x v ∧ v.cp = y

/-- The labels are written with as many sequences of elements, which are the same or variants place by place. -/
def Alike (is : List C105.Item) (l l' : Seq) : Prop :=
  ∃ xs ys : List Seq, xs.flatten = l ∧ ys.flatten = l' ∧ (∀ x ∈ xs, C155.Listed is x) ∧ (∀ y ∈ ys, C155.Listed is y) ∧
    List.Forall₂ (Same is) xs ys

/-! ## The repertoire -/

/-- What is needed about the repertoire. -/
structure Orderly (is : List C105.Item) (r : Repertoire) : Prop where
  wf : WF r
  free : C14.PrefixFree r
  uncond : Unconditional r
  symm : SymmetricR r
  trans : TransitiveR r
  same : ∀ x y, Cls r x y ↔ Same is x y
  known : ∀ x, (∃ c, r.getChar x = .ok c) ↔ C155.Listed is x

theorem orderly {R : Reader} {d : Doc} {is : List C105.Item} {g : Loaded} (F : C155.Facts R d is g) (hb : NoBeginning is)
    (hc : NoConditions is) {ign : Bool} {es : List SymEntry} (h1 : (checkSymmetry R.db g.lgr ign).2 = .ok (true, es))
    {es' : List TransEntry} (h2 : (checkTransitivity R.db g.lgr).2 = .ok (true, es')) : Orderly is g.lgr.rep := by
  have hrel : ∀ x y, VarRel g.lgr.rep x y ↔ ∃ v, C155.Maps is x v ∧ v.cp = y := by
    intro x y
    simp only [← F.maps]
    constructor
    · rintro ⟨c, hc, v, hv, he⟩
      exact ⟨v, ⟨c, getChar_ok.1 hc, hv⟩, he⟩
    · rintro ⟨v, ⟨c, hc, hv⟩, he⟩
      exact ⟨c, getChar_ok.2 hc, v, hv, he⟩
  have hknown : ∀ x, (∃ c, g.lgr.rep.getChar x = .ok c) ↔ C155.Listed is x := fun x => by
    rw [← F.listed]
    exact exists_congr fun c => getChar_ok
  have hsym : ∀ a b, C155.Maps is a b → ∃ w, C155.Maps is b.cp w ∧ w.cp = a := by
    intro a b hab
    rw [← F.maps] at hab
    cases ign with
    | true =>
      obtain ⟨-, w, h3, h4⟩ := (C26.check_symmetry_exact R.db g.lgr F.wf true es h1).1 rfl a b hab
      exact ⟨w, (F.maps _ _).1 h3, h4⟩
    | false =>
      obtain ⟨-, ⟨w, h3, h4⟩, -⟩ := (C26.check_symmetry_rules_exact R.db g.lgr F.wf true es h1).1 rfl a b hab
      exact ⟨w, (F.maps _ _).1 h3, h4⟩
  have htr := (C27.check_transitivity_exact R.db g.lgr F.wf true es' h2).1 rfl
  simp only [F.maps] at htr
  refine ⟨F.wf, ?_, ?_, ?_, ?_, ?_, hknown⟩
  · intro c e hc' he' hp
    obtain ⟨i, hi, hk⟩ := (hknown c.cp).1 ⟨c, hc'⟩
    obtain ⟨j, hj, hk'⟩ := (hknown e.cp).1 ⟨e, he'⟩
    have := hb i hi j hj _ _ hk hk' hp
    rw [this, he'] at hc'
    cases hc'
    rfl
  · intro c hc' v hv
    obtain ⟨i, hi, -, hv'⟩ := (F.maps c.cp v).1 ⟨c, getChar_ok.1 hc', hv⟩
    exact hc i hi v hv'
  · intro x y hxy
    obtain ⟨v, h3, rfl⟩ := (hrel x y).1 hxy
    exact (hrel _ _).2 (hsym x v h3)
  · intro x y z hxy hyz hne
    obtain ⟨v, h3, rfl⟩ := (hrel x y).1 hxy
    obtain ⟨w, h4, rfl⟩ := (hrel _ _).1 hyz
    exact (hrel _ _).2 ((htr x v h3).2 w h4 (Ne.symm hne))
  · intro x y
    unfold Cls Same
    rw [hrel]

/-! ## Collisions -/

/-- **C156** Let the check of symmetry (with or without conditions) and the check of transitivity succeed under a document
whose variants have no conditions, and none of whose sequences is the beginning of another one. Then two labels which
pass have the same index label exactly if they are alike. -/
theorem checked_collisions {R : Reader} {cs : Rfc7940.Results} {d : Doc} {g : Loaded} (h : Clear R cs d g)
    {is : List C105.Item} (hm : Means d.data is) (hready : Ready (d.rules.getD []) is)
    (hso : C106.Inhabited R.props is (d.rules.getD [])) (hb : NoBeginning is) (hc : NoConditions is)
    {ign : Bool} {es : List SymEntry} (h1 : (checkSymmetry R.db g.lgr ign).2 = .ok (true, es))
    {es' : List TransEntry} (h2 : (checkTransitivity R.db g.lgr).2 = .ok (true, es'))
    {env : FullEnv} (hE : Faithful R.props g.rules.rs env.toEnv) {l l' : Seq} (hl : l ≠ []) (hl' : l' ≠ [])
    (hp : C106.Plain l) (hp' : C106.Plain l') (ha : Passes R.props is (d.rules.getD []) l)
    (ha' : Passes R.props is (d.rules.getD []) l') :
    ∃ i i', env.indexLabel g.lgr.rep l 0 = .ok i ∧ env.indexLabel g.lgr.rep l' 0 = .ok i' ∧ (i = i' ↔ Alike is l l') := by
  obtain ⟨cs1, hread, -⟩ := h.read
  have O := orderly (C155.facts h.force h.tidy hread hm) hb hc h1 h2
  have S := setting_of h hm hready hso
  have hd := rules_defined S.common hE hready S.hrep
  obtain ⟨p, hpre, hok⟩ := (passes_iff h hm hready hso hE hp).2 ha
  obtain ⟨p', hpre', hok'⟩ := (passes_iff h hm hready hso hE hp').2 ha'
  obtain ⟨i, hi, -⟩ := C17.index_of_accepted O.wf hd hl hpre hok
  obtain ⟨i', hi', -⟩ := C17.index_of_accepted O.wf hd hl' hpre' hok'
  refine ⟨i, i', hi, hi', ?_⟩
  obtain ⟨ms, hms, rfl⟩ := index_classes O.wf O.free O.uncond hl hpre hok hd hi
  obtain ⟨ms', hms', rfl⟩ := index_classes O.wf O.free O.uncond hl' hpre' hok' hd hi'
  have hseg := (C13.accepted_is_segmentation O.wf hpre hok).1
  have hseg' := (C13.accepted_is_segmentation O.wf hpre' hok').1
  have hflat : ms.flatten = ms'.flatten ↔ ms = ms' :=
    ⟨flatten_unique O.free (least_stored O.symm hseg.stored hms) (least_stored O.symm hseg'.stored hms'),
      fun h => by rw [h]⟩
  have hknown : ∀ cs : List CharObj, (∀ c ∈ cs, g.lgr.rep.getChar c.cp = .ok c) →
      ∀ x ∈ cs.map CharObj.cp, C155.Listed is x := by
    intro cs hcs x hx
    obtain ⟨c, hc, rfl⟩ := List.mem_map.1 hx
    exact (O.known _).1 ⟨c, hcs c hc⟩
  rw [hflat, C134.least_iff O.symm O.trans hms hms']
  constructor
  · intro hf
    refine ⟨p.chars.map CharObj.cp, p'.chars.map CharObj.cp, hseg.concat, hseg'.concat,
      hknown _ hseg.stored, hknown _ hseg'.stored, ?_⟩
    rw [List.forall₂_map_left_iff, List.forall₂_map_right_iff]
    exact hf.imp fun c d hcd => (O.same _ _).1 hcd
  · rintro ⟨xs, ys, k1, k2, k3, k4, k5⟩
    have e1 : xs = p.chars.map CharObj.cp := flatten_unique O.free
      (fun x hx => (O.known _).2 (k3 x hx)) (fun x hx => (O.known _).2 (hknown _ hseg.stored x hx))
      (k1.trans hseg.concat.symm)
    have e2 : ys = p'.chars.map CharObj.cp := flatten_unique O.free
      (fun x hx => (O.known _).2 (k4 x hx)) (fun x hx => (O.known _).2 (hknown _ hseg'.stored x hx))
      (k2.trans hseg'.concat.symm)
    rw [e1, e2, List.forall₂_map_left_iff, List.forall₂_map_right_iff] at k5
    exact k5.imp fun c d hcd => (O.same _ _).2 hcd

/-- **C156** Under such a document the index label is alike to the label, not greater than it, and least among the labels which
are alike to it. -/
theorem checked_index {R : Reader} {cs : Rfc7940.Results} {d : Doc} {g : Loaded} (h : Clear R cs d g)
    {is : List C105.Item} (hm : Means d.data is) (hready : Ready (d.rules.getD []) is)
    (hso : C106.Inhabited R.props is (d.rules.getD [])) (hb : NoBeginning is) (hc : NoConditions is)
    {ign : Bool} {es : List SymEntry} (h1 : (checkSymmetry R.db g.lgr ign).2 = .ok (true, es))
    {es' : List TransEntry} (h2 : (checkTransitivity R.db g.lgr).2 = .ok (true, es'))
    {env : FullEnv} (hE : Faithful R.props g.rules.rs env.toEnv) {l : Seq} (hl : l ≠ [])
    (hp : C106.Plain l) (ha : Passes R.props is (d.rules.getD []) l) :
    ∃ i, env.indexLabel g.lgr.rep l 0 = .ok i ∧ IsLeast { m | Alike is l m } i := by
  obtain ⟨cs1, hread, -⟩ := h.read
  have O := orderly (C155.facts h.force h.tidy hread hm) hb hc h1 h2
  have S := setting_of h hm hready hso
  have hd := rules_defined S.common hE hready S.hrep
  obtain ⟨p, hpre, hok⟩ := (passes_iff h hm hready hso hE hp).2 ha
  obtain ⟨i, hi, -⟩ := C17.index_of_accepted O.wf hd hl hpre hok
  refine ⟨i, hi, ?_⟩
  obtain ⟨ms, hms, rfl⟩ := index_classes O.wf O.free O.uncond hl hpre hok hd hi
  have hseg := (C13.accepted_is_segmentation O.wf hpre hok).1
  have hst := least_stored O.symm hseg.stored hms
  have hxs : ∀ x ∈ p.chars.map CharObj.cp, C155.Listed is x := by
    intro x hx
    obtain ⟨c, hc, rfl⟩ := List.mem_map.1 hx
    exact (O.known _).1 ⟨c, hseg.stored c hc⟩
  constructor
  · refine ⟨p.chars.map CharObj.cp, ms, hseg.concat, rfl, hxs, fun y hy => (O.known _).1 (hst y hy), ?_⟩
    rw [List.forall₂_map_left_iff]
    exact hms.imp fun c m hm => (O.same _ _).1 hm.1
  · rintro m ⟨xs, ys, k1, rfl, k3, k4, k5⟩
    have e1 : xs = p.chars.map CharObj.cp := flatten_unique O.free
      (fun x hx => (O.known _).2 (k3 x hx)) (fun x hx => (O.known _).2 (hxs x hx)) (k1.trans hseg.concat.symm)
    rw [e1, List.forall₂_map_left_iff] at k5
    have k5' : List.Forall₂ (fun c y => Cls g.lgr.rep c.cp y) p.chars ys := k5.imp fun c y h => (O.same _ _).2 h
    have hys : ∀ y ∈ ys, ∃ c, g.lgr.rep.getChar y = .ok c := fun y hy => (O.known _).2 (k4 y hy)
    clear k5 k4 e1 k3 k1 hi hseg hok hpre hxs
    generalize p.chars = ch at hms k5'
    induction hms generalizing ys with
    | nil => cases k5'; exact le_refl _
    | @cons c m cs ms hm _ ih =>
      cases k5' with
      | @cons _ y _ ys hy k5' =>
        have hle : m ≤ y := hm.2 hy
        rw [List.flatten_cons, List.flatten_cons]
        have hrest := ih (fun z hz => hst z (List.mem_cons_of_mem _ hz)) ys (fun z hz => hys z (List.mem_cons_of_mem _ hz)) k5'
        rcases lt_or_eq_of_le hle with hlt | rfl
        · by_cases hpm : m <+: y
          · obtain ⟨c1, hc1⟩ := hst m List.mem_cons_self
            obtain ⟨c2, hc2⟩ := hys y List.mem_cons_self
            have h3 := O.free c1 c2 (getChar_self hc1) (getChar_self hc2) (by rw [getChar_cp hc1, getChar_cp hc2]; exact hpm)
            have : m = y := by rw [← getChar_cp hc1, ← getChar_cp hc2, h3]
            exact absurd hlt (by rw [this]; exact lt_irrefl _)
          · exact le_of_lt (C19.append_lt hlt hpm _ _)
        · exact C19.append_le hrest

/-- **C156** Under such a document the labels alike to one which passes are those which `_generate_label_variants` lists for it and the label itself,
as far as they pass. -/
theorem checked_variants {R : Reader} {cs : Rfc7940.Results} {d : Doc} {g : Loaded} (h : Clear R cs d g)
    {is : List C105.Item} (hm : Means d.data is) (hready : Ready (d.rules.getD []) is)
    (hso : C106.Inhabited R.props is (d.rules.getD [])) (hb : NoBeginning is) (hc : NoConditions is)
    {ign : Bool} {es : List SymEntry} (h1 : (checkSymmetry R.db g.lgr ign).2 = .ok (true, es))
    {es' : List TransEntry} (h2 : (checkTransitivity R.db g.lgr).2 = .ok (true, es'))
    {env : FullEnv} (hE : Faithful R.props g.rules.rs env.toEnv) {l l' : Seq} (hl : l ≠ []) (hl' : l' ≠ [])
    (hp : C106.Plain l) (hp' : C106.Plain l') (ha : Passes R.props is (d.rules.getD []) l)
    (ha' : Passes R.props is (d.rules.getD []) l') :
    Alike is l l' ↔ l' = l ∨ ∃ gs, env.genVariants g.lgr.rep false l = .ok gs ∧ ∃ v ∈ gs, v.cps = l' := by
  obtain ⟨i, i', hi, hi', hk⟩ := checked_collisions h hm hready hso hb hc h1 h2 hE hl hl' hp hp' ha ha'
  obtain ⟨cs1, hread, -⟩ := h.read
  have O := orderly (C155.facts h.force h.tidy hread hm) hb hc h1 h2
  have S := setting_of h hm hready hso
  rw [← hk]
  exact C18.same_index_iff_variant_partial O.wf O.free O.uncond O.symm O.trans (rules_defined S.common hE hready S.hrep)
    hl hl' ((passes_iff h hm hready hso hE hp).2 ha) ((passes_iff h hm hready hso hE hp').2 ha') hi hi'

/-! ## Example -/

/-- `a` and `bc` are variants of each other; `d` has none. -/
def doc8 : Doc :=
  { metaE := some []
    data := [{ tag := "char", attrs := [("cp", "61")], vars := [[("cp", "62 63")]] },
      { tag := "char", attrs := [("cp", "62 63")], vars := [[("cp", "61")]] }, { tag := "char", attrs := [("cp", "64")] }] }

def varS8 : Variant := { cp := [0x62, 0x63] }
def varA8 : Variant := { cp := [0x61] }
def items8 : List C105.Item := [.char [0x61] {} [varS8], .char [0x62, 0x63] {} [varA8], .char [0x64] {} []]

theorem doc8_means : Means doc8.data items8 := by
  refine .item (.char rfl ?_ ⟨rfl, rfl, rfl, ?_, ?_⟩ (.cons ⟨?_, rfl, rfl, rfl, rfl, ?_⟩ .nil))
    (.item (.char rfl ?_ ⟨rfl, rfl, rfl, ?_, ?_⟩ (.cons ⟨?_, rfl, rfl, rfl, rfl, ?_⟩ .nil))
    (.item (.char rfl ?_ ⟨rfl, rfl, rfl, ?_, ?_⟩ .nil) .nil))
  all_goals first
    | exact spells_iff.2 (by decide +kernel)
    | exact (listed_iff (by decide +kernel)).2 (by decide +kernel)

theorem doc8_reads : (match parseDoc reader1 [] doc8 with
    | (cs, .ok (some _)) => decide (dget cs "parse_xml" ≠ some false)
    | _ => false) = true := by decide +kernel

theorem doc8_clear : ∃ g, Clear reader1 [] doc8 g := by
  have h := doc8_reads
  rcases hp : parseDoc reader1 [] doc8 with ⟨cs, o⟩
  rw [hp] at h
  match o, h with
  | .ok (some g), h =>
    exact ⟨g, rfl, ⟨cs, hp, by simpa using h⟩, by decide +kernel, ⟨List.nodup_nil, List.nodup_nil, by intro n hn; cases hn⟩,
      by intro e he; cases he⟩

theorem maps8 {a : Seq} {v : Variant} :
    C155.Maps items8 a v ↔ a = [0x61] ∧ v = varS8 ∨ a = [0x62, 0x63] ∧ v = varA8 := by
  simp [C155.Maps, items8, C105.Item.Has, C105.Item.vars]

theorem free8 {db : String → Except Err CpSet} {label : Seq} {o n : Nat} : InContext db items8 [] label none none o n :=
  ⟨fun r hr => (by cases hr), fun r hr => (by cases hr)⟩

theorem passes8 {db : String → Except Err CpSet} : Passes db items8 [] [0x61, 0x64] ∧ Passes db items8 [] [0x62, 0x63, 0x64] := by
  constructor
  · refine ⟨[[0x61], [0x64]], .step (i := .char [0x61] {} [varS8]) ⟨by simp [items8], rfl, ⟨[0x64], rfl⟩, free8⟩ ?_
      (.step (i := .char [0x64] {} []) ⟨by simp [items8], rfl, ⟨[], rfl⟩, free8⟩ ?_ (.done 2))⟩
    all_goals
      rintro j k ⟨h1, h2, h3, -⟩
      simp only [items8, List.mem_cons, List.not_mem_nil, or_false] at h1
      rcases h1 with rfl | rfl | rfl <;> (rw [show k = _ from h2] at h3 ⊢ <;> revert h3 <;> decide)
  · refine ⟨[[0x62, 0x63], [0x64]], .step (i := .char [0x62, 0x63] {} [varA8]) ⟨by simp [items8], rfl, ⟨[0x64], rfl⟩, free8⟩ ?_
      (.step (i := .char [0x64] {} []) ⟨by simp [items8], rfl, ⟨[], rfl⟩, free8⟩ ?_ (.done 3))⟩
    all_goals
      rintro j k ⟨h1, h2, h3, -⟩
      simp only [items8, List.mem_cons, List.not_mem_nil, or_false] at h1
      rcases h1 with rfl | rfl | rfl <;> (rw [show k = _ from h2] at h3 ⊢ <;> revert h3 <;> decide)

theorem ready8 : Ready [] items8 := by
  intro i hi
  simp only [items8, List.mem_cons, List.not_mem_nil, or_false] at hi
  rcases hi with rfl | rfl | rfl <;> simp [varS8, varA8, C105.Item.attrs, C105.Item.vars]

theorem noBeginning8 : NoBeginning items8 := by
  intro i hi j hj k k' hk hk' h
  simp only [items8, List.mem_cons, List.not_mem_nil, or_false] at hi hj
  rcases hi with rfl | rfl | rfl <;> rcases hj with rfl | rfl | rfl <;>
    (rw [show k = _ from hk, show k' = _ from hk'] at h ⊢ <;> revert h <;> decide)

theorem noConditions8 : NoConditions items8 := by
  intro i hi v hv
  simp only [items8, List.mem_cons, List.not_mem_nil, or_false] at hi
  rcases hi with rfl | rfl | rfl
  · rw [List.mem_singleton.1 hv]; exact ⟨rfl, rfl⟩
  · rw [List.mem_singleton.1 hv]; exact ⟨rfl, rfl⟩
  · cases hv

/-- The checks succeed. -/
theorem checks8 {g : Loaded} (hg : Clear reader1 [] doc8 g) : ∃ es es',
    (checkSymmetry reader1.db g.lgr false).2 = .ok (true, es) ∧ (checkTransitivity reader1.db g.lgr).2 = .ok (true, es') := by
  obtain ⟨cs1, hread, -⟩ := hg.read
  obtain ⟨s, es, h1, h2, -⟩ := C155.document_symmetry hg.force hg.tidy hread doc8_means false
  obtain ⟨t, es', h3, h4, -⟩ := C155.document_transitivity hg.force hg.tidy hread doc8_means
  have hs : s = true := by
    refine h2.2 fun a b hab => ?_
    rcases maps8.1 hab with ⟨rfl, rfl⟩ | ⟨rfl, rfl⟩
    · exact ⟨⟨varA8, maps8.2 (.inr ⟨rfl, rfl⟩), rfl⟩, fun r hr => (by cases hr), fun r hr => (by cases hr)⟩
    · exact ⟨⟨varS8, maps8.2 (.inl ⟨rfl, rfl⟩), rfl⟩, fun r hr => (by cases hr), fun r hr => (by cases hr)⟩
  have ht : t = true := by
    refine h4.2 fun a b hab => ?_
    rcases maps8.1 hab with ⟨rfl, rfl⟩ | ⟨rfl, rfl⟩
    · refine ⟨⟨.char [0x62, 0x63] {} [varA8], by simp [items8], rfl⟩, fun c hc hne => ?_⟩
      rcases maps8.1 hc with ⟨h, -⟩ | ⟨-, rfl⟩
      · exact absurd h (by decide)
      · exact absurd rfl hne
    · refine ⟨⟨.char [0x61] {} [varS8], by simp [items8], rfl⟩, fun c hc hne => ?_⟩
      rcases maps8.1 hc with ⟨-, rfl⟩ | ⟨h, -⟩
      · exact absurd rfl hne
      · exact absurd h (by decide)
  subst hs ht
  exact ⟨es, es', h1, h3⟩

/-- `ad` and `bcd` are alike. -/
theorem alike8 : Alike items8 [0x61, 0x64] [0x62, 0x63, 0x64] :=
  ⟨[[0x61], [0x64]], [[0x62, 0x63], [0x64]], rfl, rfl, by simp [C155.Listed, items8, C105.Item.Has],
    by simp [C155.Listed, items8, C105.Item.Has], .cons (.inr ⟨varS8, maps8.2 (.inl ⟨rfl, rfl⟩), rfl⟩) (.cons (.inl rfl) .nil)⟩

/-- The hypotheses are met: the checks succeed, and `ad` and `bcd` collide. -/
example : ∃ g es es', Clear reader1 [] doc8 g ∧ Means doc8.data items8 ∧
    (checkSymmetry reader1.db g.lgr false).2 = .ok (true, es) ∧ (checkTransitivity reader1.db g.lgr).2 = .ok (true, es') ∧
    (∃ env : FullEnv, Faithful reader1.props g.rules.rs env.toEnv) ∧
    ∀ env : FullEnv, Faithful reader1.props g.rules.rs env.toEnv →
      ∃ i, env.indexLabel g.lgr.rep [0x61, 0x64] 0 = .ok i ∧ env.indexLabel g.lgr.rep [0x62, 0x63, 0x64] 0 = .ok i := by
  obtain ⟨g, hg⟩ := doc8_clear
  obtain ⟨es, es', h1, h3⟩ := checks8 hg
  obtain ⟨env, -, he⟩ := full_faithful_exists (common_of hg doc8_means).1 (fun _ => "Latin")
  refine ⟨g, es, es', hg, doc8_means, h1, h3, ⟨env, he.1⟩, fun env hE => ?_⟩
  obtain ⟨i, i', k1, k2, k3⟩ := checked_collisions hg doc8_means ready8 (by intro w _ e he; cases he) noBeginning8 noConditions8 h1 h3
    hE (l := [0x61, 0x64]) (l' := [0x62, 0x63, 0x64]) (by simp) (by simp) (by unfold C106.Plain; decide)
    (by unfold C106.Plain; decide) passes8.1 passes8.2
  obtain rfl := k3.2 alike8
  exact ⟨i, k1, k2⟩

end Lgr.Props.C156

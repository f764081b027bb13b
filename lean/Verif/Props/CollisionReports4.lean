import Verif.Props.CollisionReports3
import Verif.Props.IndexClass

/-!
# C113: `collision` with an LGR
-/

namespace Lgr.Props.C113
open Lgr Collisions LabelInput C32 C112 FullEnv Repertoire

/-- Labels for which dispositions can be computed. -/
def Fits (l : Seq) : Prop := l ≠ [] ∧ l.length ≤ 63

/-- An LGR whose rules are all defined. -/
structure Defined (env : FullEnv) (r : Repertoire) (actions : List Action) : Prop where
  wf : WF r
  rules : RulesDefined env.toEnv r
  actions : ∀ l, C20.ActionRulesDefined env actions l

theorem index_indexes {env : FullEnv} {r : Repertoire} {actions : List Action} (h : Defined env r actions)
    {P : Seq → Prop} (hP : ∀ l, P l → Fits l) : Indexes (indexOf env r) P := by
  intro l hl e he
  obtain ⟨p, hp⟩ := prelim_defined h.wf h.rules l
  cases hok : p.ok with
  | false =>
    obtain ⟨x, _, _, _, _, h1⟩ := C17.index_of_rejected h.wf (hP l hl).1 hp hok 0
    unfold indexOf at he
    rw [h1] at he
    cases he
    exact ⟨_, rfl⟩
  | true =>
    obtain ⟨i, h1, -⟩ := C17.index_of_accepted h.wf h.rules (hP l hl).1 hp hok
    unfold indexOf at he
    rw [h1] at he
    cases he

theorem accepted_iff {env : FullEnv} {r : Repertoire} {actions : List Action} (h : Defined env r actions) {l : Seq}
    (hl : l ≠ []) : (∃ k, indexOf env r l = .ok k) ↔ Accepted env r l := C17.index_total h.wf h.rules hl 0

theorem dispoOf_eq {env : FullEnv} {r : Repertoire} {actions : List Action} (h : Defined env r actions)
    (log : Seq → Seq → String) (b : Bool) {l : Seq} (hl : Fits l) (w : Option (List Seq)) :
    ∃ its, env.computeDisposition r actions true { includeInvalid := true, withLabels := w.getD [] } l = .ok its ∧
      dispoOf env r actions log b l w = (its.map (infoOf log b l), .ok ()) := by
  obtain ⟨its, hi⟩ := C25.listing_total h.wf h.rules h.actions
    { includeInvalid := true, withLabels := w.getD [] } hl.1 hl.2
  exact ⟨its, hi, by unfold dispoOf; rw [hi]⟩

theorem dispoOf_ok {env : FullEnv} {r : Repertoire} {actions : List Action} (h : Defined env r actions)
    (log : Seq → Seq → String) (b : Bool) {l : Seq} (hl : Fits l) (w : Option (List Seq)) :
    (dispoOf env r actions log b l w).2 = .ok () := by
  obtain ⟨its, -, h2⟩ := dispoOf_eq h log b hl w
  rw [h2]

theorem dispoOf_restricted {env : FullEnv} {r : Repertoire} {actions : List Action} (h : Defined env r actions)
    (log : Seq → Seq → String) {P : Seq → Prop} (hP : ∀ l, P l → Fits l) :
    Restricted (dispoOf env r actions log) P := by
  intro b l w hp hl v hv
  obtain ⟨its, h1, h2⟩ := dispoOf_eq h log b (hP l hp) (some w)
  rw [h2] at hv
  obtain ⟨it, hit, rfl⟩ := List.mem_map.1 hv
  obtain ⟨gs, its', orig, last, -, -, -, rfl, hlast, hL, -⟩ := compute_split h1
  show it.cps ∈ w
  rcases List.mem_append.1 hit with hit | hit
  · obtain ⟨g, -, h3, h4⟩ := hL.source it hit
    rw [itemOf_cps h3]
    exact h4 (List.ne_nil_of_mem hl)
  · rw [List.mem_singleton] at hit
    rw [hit, hlast]; exact hl

theorem computed_iff {env : FullEnv} {r : Repertoire} {actions : List Action} (h : Defined env r actions)
    (log : Seq → Seq → String) (quiet : Bool) {l : Seq} (hl : Fits l) :
    ((computed (dispoOf env r actions log) quiet l).map Prod.fst).Nodup ∧
    ∀ x, x ∈ (computed (dispoOf env r actions log) quiet l).map Prod.fst ↔ C18.VariantOf env r l x := by
  obtain ⟨its, h1, h2⟩ := dispoOf_eq h log (!quiet) hl none
  have hm : (computed (dispoOf env r actions log) quiet l).map Prod.fst = its.map Item.cps := by
    unfold computed
    rw [h2, List.map_map]
    rfl
  rw [hm]
  refine ⟨(C25.listing h1).2.1 rfl, fun x => ?_⟩
  obtain ⟨gs, its', orig, last, hgs, -, -, rfl, hlast, hL, -⟩ := compute_split h1
  rw [List.mem_map]
  unfold C18.VariantOf
  constructor
  · rintro ⟨it, hit, rfl⟩
    rcases List.mem_append.1 hit with hit | hit
    · obtain ⟨g, hg, h3, -⟩ := hL.source it hit
      exact .inr ⟨gs, hgs, g, hg, (itemOf_cps h3).symm⟩
    · rw [List.mem_singleton] at hit
      rw [hit, hlast]; exact .inl rfl
  · rintro (rfl | ⟨gs', hgs', g, hg, rfl⟩)
    · exact ⟨last, by simp, hlast⟩
    · have hgs2 : gs = gs' := by
        have : env.genVariants r false l = .ok gs := hgs
        rw [this] at hgs'
        cases hgs'; rfl
      subst hgs2
      by_cases hgl : g.cps = l
      · exact ⟨last, by simp, by rw [hlast, hgl]⟩
      · obtain ⟨g', -, h4, it, h5, h6⟩ := hL.complete g hg (by simp) (by simp)
        rcases h6 with h6 | h6 | h6
        · simp at h6
        · exact ⟨it, List.mem_append_left _ h6.2, by rw [itemOf_cps h5, h4]⟩
        · exact absurd h6.1 hgl

theorem dispoOf_lists {env : FullEnv} {r : Repertoire} {actions : List Action} (h : Defined env r actions)
    (log : Seq → Seq → String) (quiet : Bool) {P : Seq → Prop} (hP : ∀ l, P l → Fits l) :
    Lists (dispoOf env r actions log) quiet P :=
  ⟨fun l hl => (computed_iff h log quiet (hP l hl)).1, fun l hl => ((computed_iff h log quiet (hP l hl)).2 l).2 (.inl rfl)⟩

/-- Symmetric and transitive, without conditions on variants, no entry being the beginning of another one. -/
structure Regular (r : Repertoire) : Prop where
  prefixFree : C14.PrefixFree r
  unconditional : Unconditional r
  symmetric : SymmetricR r
  transitive : TransitiveR r

/-- In a regular LGR the labels of the same index have the same variants. -/
theorem same_variants {env : FullEnv} {r : Repertoire} (h : WF r) (hg : Regular r) (hd : RulesDefined env.toEnv r)
    {p q k x : Seq} (hp0 : p ≠ []) (hq0 : q ≠ []) (hp : indexOf env r p = .ok k) (hq : indexOf env r q = .ok k)
    (hx : C18.VariantOf env r q x) : C18.VariantOf env r p x := by
  obtain ⟨hpf, hu, hs, ht⟩ := hg
  obtain ⟨pp, hpp, hpok⟩ := (C17.index_total h hd hp0 0).1 ⟨k, hp⟩
  obtain ⟨pq, hpq, hqok⟩ := (C17.index_total h hd hq0 0).1 ⟨k, hq⟩
  obtain ⟨ms, hms, hmk⟩ := index_classes h hpf hu hp0 hpp hpok hd hp
  obtain ⟨ms', hms', hmk'⟩ := index_classes h hpf hu hq0 hpq hqok hd hq
  have hsegp := (C13.accepted_is_segmentation h hpp hpok).1
  have hsegq := (C13.accepted_is_segmentation h hpq hqok).1
  have hmm : ms = ms' := flatten_unique hpf (least_stored hs hsegp.stored hms)
    (least_stored hs hsegq.stored hms') (by rw [← hmk, ← hmk'])
  subst hmm
  -- the segments of the variant
  obtain ⟨xs, hxs, hcls⟩ : ∃ xs : List Seq, xs.flatten = x ∧
      List.Forall₂ (fun c y => Cls r c.cp y) pq.chars xs := by
    rcases hx with rfl | ⟨gs, hgs, g, hg, rfl⟩
    · refine ⟨pq.chars.map CharObj.cp, by rw [← hsegq.concat, List.flatMap], ?_⟩
      rw [List.forall₂_map_right_iff, List.forall₂_same]
      exact fun c _ => .inl rfl
    · obtain ⟨ss, hr, hc, -⟩ := C22.generated_sound h hgs hg
      have hu1 : ss.map (fun s => s.1) = pq.chars := by
        apply C24.segments_unique hpf
        · intro c hc
          obtain ⟨s, hs, rfl⟩ := List.mem_map.1 hc
          exact hr.stored s hs
        · exact hsegq.stored
        · rw [hsegq.concat, ← hr.concat]; simp [origOf, List.flatMap_map]
      have hval := C24.allSteps_valid hr.valid
      refine ⟨ss.map Step.out, by rw [hc, outOf, List.flatMap], ?_⟩
      rw [← hu1, List.forall₂_map_left_iff, List.forall₂_map_right_iff, List.forall₂_same]
      intro s hs'
      rw [cls_iff (hr.stored s hs')]
      unfold Step.out
      cases ho : s.2 with
      | none => exact Or.inl rfl
      | some v => exact Or.inr ⟨v, hval s hs' v ho, rfl⟩
  have hcls' : List.Forall₂ (fun c y => Cls r c.cp y) pp.chars xs := by
    have : ∀ {cs ds : List CharObj} {ms xs : List Seq}, List.Forall₂ (LeastOf r) cs ms →
        List.Forall₂ (LeastOf r) ds ms → List.Forall₂ (fun c y => Cls r c.cp y) ds xs →
        List.Forall₂ (fun c y => Cls r c.cp y) cs xs := by
      intro cs ds ms xs h1
      induction h1 generalizing ds xs with
      | nil =>
        intro h2 h3
        cases h2
        cases h3
        exact .nil
      | cons hm _ ih =>
        intro h2 h3
        cases h2 with
        | cons hm2 h2 =>
          cases h3 with
          | cons hm3 h3 => exact .cons (Cls.trans ht (Cls.trans ht hm.1 (Cls.symm hs hm2.1)) hm3) (ih h2 h3)
    exact this hms hms' hcls
  obtain ⟨gs, hgs⟩ := genVariants_defined h hd false p
  have hgs2 := hgs
  rw [← hsegp.concat] at hgs2
  rcases classes_generated h hpf hu hsegp.stored hcls' hgs2 with h1 | ⟨g, hg, hgc⟩
  · left; rw [← hxs, h1, hsegp.concat]
  · exact .inr ⟨gs, hgs, g, hg, hgc.trans hxs⟩

/-- **C113**, partial: `collision` with an LGR whose rules are defined, for labels and TLDs of at most 63 code points.
Without a dump, exactly the pairs of a label and another label or TLD with the same index are reported. With a dump
the same pairs are reported, and each label with an index is listed with exactly its variants and their dispositions, in
LGRs where collisions are well defined: symmetric and transitive, no conditional variants, no entry a prefix
of another one, all labels in the LGR. Missing: other LGRs (`collision_partial`, `dump_wrong`). -/
theorem collision_lgr_partial (order : List Seq → List Seq) (ho : Order order) (lower : String → String)
    {env : FullEnv} {r : Repertoire} {actions : List Action} (h : Defined env r actions) (log : Seq → Seq → String)
    (rs : List Read) (tlds : Option (List Read)) (hfit : ∀ l, (Input rs l ∨ Tld tlds l) → Fits l) (quiet : Bool) :
    (∃ out, collision order lower (indexOf env r) (dispoOf env r actions log) rs tlds false quiet = (out, .ok ()) ∧
      Opening (indexOf env r) rs tlds out ∧ Reported (indexOf env r) (Input rs) (Tld tlds) false out) ∧
    (Regular r → (∀ l, (Input rs l ∨ Tld tlds l) → Accepted env r l) →
      ∃ out, collision order lower (indexOf env r) (dispoOf env r actions log) rs tlds true quiet = (out, .ok ()) ∧
        Opening (indexOf env r) rs tlds out ∧ Reported (indexOf env r) (Input rs) (Tld tlds) true out ∧
        Dumped (indexOf env r) (dispoOf env r actions log) lower quiet (Input rs) (Tld tlds) out) := by
  have hP : ∀ l, Indexed (indexOf env r) rs tlds l → Fits l := fun l hl => hfit l hl.1
  obtain ⟨g1, g2⟩ := collision_partial order ho lower (indexOf env r) (dispoOf env r actions log) rs tlds quiet
    (index_indexes h hfit) (fun b l w hl => dispoOf_ok h log b (hP l hl) w) (dispoOf_restricted h log hP)
  refine ⟨g1, fun hg hacc => (g2 (dispoOf_lists h log quiet hP) ?_).1 ?_⟩
  · intro q k hq hk v hv hvm
    have hv' := ((computed_iff h log quiet (hfit q hq)).2 v.1).1 (List.mem_map.2 ⟨v, hv, rfl⟩)
    obtain ⟨k', hk'⟩ := (accepted_iff h (hfit _ hvm).1).2 (hacc _ hvm)
    rw [hk', (C18.same_index_iff_variant_partial h.wf hg.prefixFree hg.unconditional hg.symmetric hg.transitive h.rules
      (hfit q hq).1 (hfit _ hvm).1 (hacc q hq) (hacc _ hvm) hk hk').2 hv']
  · rintro p q hp hq ⟨k, h1, h2⟩ x hx
    rw [(computed_iff h log quiet (hfit q hq)).2] at hx
    rw [(computed_iff h log quiet (hfit p (.inl hp))).2]
    exact same_variants h.wf hg h.rules (hfit p (.inl hp)).1 (hfit q hq).1 h1 h2 hx

/-- The pairs reported do not depend on the dump. -/
def SameCollisions : Prop :=
  ∀ (order : List Seq → List Seq), Order order → ∀ (lower : String → String) (env : FullEnv) (r : Repertoire)
    (actions : List Action), Defined env r actions → Regular r → ∀ (log : Seq → Seq → String) (rs : List Read)
    (tlds : Option (List Read)), (∀ l, (Input rs l ∨ Tld tlds l) → Fits l) → ∀ (quiet : Bool) (out out' : List Line),
    collision order lower (indexOf env r) (dispoOf env r actions log) rs tlds false quiet = (out, .ok ()) →
    collision order lower (indexOf env r) (dispoOf env r actions log) rs tlds true quiet = (out', .ok ()) →
    ∀ p q, (∃ b, .within b p q ∈ out) ↔ ∃ b, .within b p q ∈ out'

/-- No context rule is met. -/
def noContext : FullEnv := ⟨⟨fun _ _ _ _ => .ok false⟩, fun _ _ => .ok false, fun _ => "Latin"⟩

/-- The labels are read without error. -/
def reads (ls : List Seq) : List Read := ls.map (fun l => { orig := [], label := l, valid := true, error := none })

theorem input_reads {ls : List Seq} {l : Seq} : Input (reads ls) l ↔ l ∈ ls := by
  unfold C112.Input reads
  simp

/-- **C113** is violated: `a` and `b` are variants of each other, `b` is allowed in a context only. The label `b` is
not in the LGR and does not collide with `a`; with a dump it is reported as a collision. -/
theorem dump_wrong : ¬ SameCollisions := by
  intro h
  have := h List.dedup ⟨List.nodup_dedup, fun _ _ => List.mem_dedup⟩ id noContext
    (Repertoire.run {} [.addChar [97] {}, .addChar [98] { whenR := some "R" },
      .addVariant [97] { cp := [98] }, .addVariant [98] { cp := [97] }]) []
    ⟨C01.wf_run _, ⟨fun _ _ _ _ _ _ _ => ⟨_, rfl⟩, fun _ _ _ _ _ _ _ _ _ => ⟨_, rfl⟩⟩, by intro l a ha; simp at ha⟩
    ⟨prefixFree_of (C01.wf_run _) (by decide +kernel), unconditional_of (C01.wf_run _) (by decide +kernel),
      symmetric_of (C01.wf_run _) (by decide +kernel), transitive_of (C01.wf_run _) (by decide +kernel)⟩
    (fun _ _ => "") (reads [[97], [98]]) none (by
      rintro l (hl | ⟨_, h, -⟩)
      · rw [input_reads] at hl
        simp only [List.mem_cons, List.not_mem_nil, or_false] at hl
        rcases hl with rfl | rfl <;> exact ⟨by simp, by simp⟩
      · cases h) true _ _ (by rfl) (by rfl) ([97], .primary) ([98], .variant)
  revert this
  simp only [Bool.exists_bool]
  decide +kernel

/-- Non-vacuity of `collision_lgr_partial`: `a` and `b` are variants of each other, `c` is not; the labels are `a`, `b`
and `c`. -/
example : ∃ out, collision List.dedup id (indexOf noContext (Repertoire.run {} [.addChar [97] {}, .addChar [98] {},
      .addChar [99] {}, .addVariant [97] { cp := [98] }, .addVariant [98] { cp := [97] }]))
    (dispoOf noContext (Repertoire.run {} [.addChar [97] {}, .addChar [98] {},
      .addChar [99] {}, .addVariant [97] { cp := [98] }, .addVariant [98] { cp := [97] }]) [] (fun _ _ => ""))
    (reads [[97], [98], [99]]) none true true = (out, .ok ()) ∧
    out = [.text "Collisions", .index [97], .within false ([97], .primary) ([98], .primary), .index [99],
      .text "Summary", .dump [97], .dumped [97] .primary [98], .dumpedDisp [97] [98] "valid", .count [97] "valid" 2,
      .dump [98], .dumped [98] .primary [97], .dumpedDisp [98] [97] "valid", .count [98] "valid" 2,
      .dump [99], .count [99] "valid" 1] :=
  ⟨_, by rfl, by decide +kernel⟩

end Lgr.Props.C113

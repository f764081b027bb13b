import Verif.Props.Harmonize
import Verif.Props.PopulateLabels

/-!
# C135: harmonising and the eligibility of labels
-/

namespace Lgr.Props.C135
open Lgr LGR Repertoire FullEnv C50 C26 Populate C28 C46 C133 Harmonize Compare

theorem keeps_half {g p : LGR} (k : Keeps g p) (label : Seq)
    (hl : ∀ x, In p x → ¬ In g x → ¬ x <:+: label) :
    Half g.rep p.rep label ∧ Half p.rep g.rep label := by
  have hown : ∀ (c c' : CharObj), g.rep.lookup c.cp = some c → p.rep.lookup c.cp = some c' →
      ∀ v : Variant, v.cp = c.cp → (v ∈ c'.getVariants ↔ v ∈ c.getVariants) := by
    intro c c' hc hc' v hv
    have := k.own v (by rw [hv]; exact ⟨c, hc⟩)
    unfold Maps at this
    rw [hv, hc, hc'] at this
    simpa using this
  refine ⟨fun c hc _ => ?_, fun c' hc' hx => ?_⟩
  · obtain ⟨c', hc', ha⟩ := k.keep c.cp c hc
    exact ⟨c', hc', ha, hown c c' hc hc'⟩
  · cases hc : g.rep.lookup c'.cp with
    | none =>
      have hn : ¬ In g c'.cp := by rintro ⟨d, hd⟩; rw [hc] at hd; cases hd
      exact absurd hx (hl _ ⟨c', hc'⟩ hn)
    | some c =>
      have hcp := lookup_cp hc
      obtain ⟨d, hd, ha⟩ := k.keep c'.cp c hc
      rw [hc'] at hd
      cases hd
      refine ⟨c, rfl, ha.symm, fun v hv => ?_⟩
      exact (hown c c' (by rw [hcp]; exact hc) (by rw [hcp]; exact hc') v (by rw [hcp]; exact hv)).symm

/-- The action against code points out of repertoire in RFC 7940 and in the LGRs of the root zone. -/
def oorAction : Action := { disp := "invalid", anyVariant := ["out-of-repertoire-var"] }

section
variable (ord : SetOrder) (n : Nat) (db1 db2 : UniDb) (g1 g2 : LGR) (hw1 : WF g1.rep)
  (hw2 : WF g2.rep) (hi1 : Intact g1.rep) (hi2 : Intact g2.rep) (h : Harmonized)
  (rz : Option (UniDb × LGR)) (hz : ∀ z ∈ rz, WF z.2.rep ∧ Intact z.2.rep)
  (hr : harmonize ord n db1 db2 g1 g2 rz = some (.ok h))

include hw1 hw2 hi1 hi2 hz hr

/-- The code points which harmonising adds to the first LGR. -/
theorem added_iff (x : Seq) : In h.g1 x ∧ ¬ In g1 x ↔
    ((withRoot g1 rz).harm (withRoot g2 rz)).node x ∧ ¬ (graph g1).node x := by
  obtain ⟨-, -, -, k, -⟩ := harmonize_spec hw1 hw2 hi1 hi2 hz hr
  rw [← k]; exact Iff.rfl

/-- **C135** A label in which no added code point occurs is answered for by the harmonised LGR as before:
eligible or not, disposition, deciding action, code points rejected. Missing for the full property: labels
with added code points (`added_becomes_eligible_wrong`, `label_lost_wrong`). -/
theorem harmonize_labels_partial (env : FullEnv) (actions : List Action) (label : Seq)
    (hl : ∀ x, ((withRoot g1 rz).harm (withRoot g2 rz)).node x → ¬ (graph g1).node x → ¬ x <:+: label)
    (el el' : Eligible) (he : env.testEligible g1.rep actions label = .ok el)
    (he' : env.testEligible h.g1.rep actions label = .ok el') :
    el.ok = el'.ok ∧ el.parts = el'.parts ∧ el.invalid.map Prod.fst = el'.invalid.map Prod.fst ∧
      el.disp = el'.disp ∧ el.idx = el'.idx := by
  obtain ⟨⟨w, -⟩, k, -⟩ := harmonize_spec hw1 hw2 hi1 hi2 hz hr
  obtain ⟨a1, a2⟩ := keeps_half k label fun x h1 h2 =>
    hl x ((added_iff ord n db1 db2 g1 g2 hw1 hw2 hi1 hi2 h rz hz hr x).1 ⟨h1, h2⟩).1 h2
  exact eligible_same hw1 w a1 a2 he he'

/-- **C135** is violated by every single code point which harmonising adds. Before, it is not eligible.
Afterwards it is an entry; its identity mapping, if it has one, has the type `out-of-repertoire`, which the
action against the type `out-of-repertoire-var` does not mention, so that the label is valid. -/
theorem added_becomes_eligible_wrong (x : Nat)
    (hx : ((withRoot g1 rz).harm (withRoot g2 rz)).node [x]) (hx' : ¬ (graph g1).node [x])
    (env : FullEnv) (actions : List Action) (el el' : Eligible)
    (he : env.testEligible g1.rep actions [x] = .ok el)
    (he' : env.testEligible h.g1.rep actions [x] = .ok el') :
    el.ok = false ∧ el.disp = some "invalid" ∧ el.idx = -1 ∧
    ∃ d only s, (∀ t ∈ d, t = some "out-of-repertoire") ∧ Decides env actions [x] d only s el'.idx ∧
      el'.disp = some s ∧ (el'.ok = true ↔ s ≠ "invalid") ∧
      (actions = [] ∨ actions = [oorAction] → s = "valid") := by
  obtain ⟨⟨w, -⟩, k, -⟩ := harmonize_spec hw1 hw2 hi1 hi2 hz hr
  obtain ⟨⟨c', hc'⟩, hx1⟩ := (added_iff ord n db1 db2 g1 g2 hw1 hw2 hi1 hi2 h rz hz hr [x]).2 ⟨hx, hx'⟩
  have hna : ¬ Accepted env g1.rep [x] := by
    rintro ⟨p, hp, hok⟩
    exact hx1 (single_seg (C13.accepted_is_segmentation hw1 hp hok).1)
  obtain ⟨e1, e2, e3⟩ := C49.rejected_disposition he hna
  refine ⟨e1, e2, e3, ?_⟩
  have hcp := lookup_cp hc'
  have hnone : g1.rep.lookup [x] = none := by
    cases hl : g1.rep.lookup [x] with
    | none => rfl
    | some c => exact absurd ⟨c, hl⟩ hx1
  have hattrs : c'.attrs.whenR = none ∧ c'.attrs.notWhenR = none := by
    rcases k.fresh [x] c' hnone hc' with h1 | h1 <;> rw [h1] <;> exact ⟨rfl, rfl⟩
  have hacc : Accepted env h.g1.rep [x] := by
    unfold testEligible at he'
    simp only [List.cons_ne_nil, if_false] at he'
    cases hp : env.prelim h.g1.rep [x] with
    | error e => simp [hp] at he'
    | ok p =>
      refine ⟨p, hp, C14.accepts_plain_labels_partial w hp (fun y hy => ?_)⟩
      simp only [List.mem_singleton] at hy
      subst hy
      exact ⟨c', getChar_ok.2 hc', hattrs.1, hattrs.2⟩
  obtain ⟨d, only, s, k1, k2, k3, k4, k5⟩ := C49.reflexive_disposition w he' hacc
  have hd : ∀ t ∈ d, t = some "out-of-repertoire" := by
    intro t ht
    obtain ⟨j, c, v, a1, a2, -, a4, a5⟩ := (k1 t).1 ht
    have hj : j = 0 := by simpa using a1
    subst hj
    have hcx : c.cp = [x] := by
      have h1 := a2.2
      have h2 := getChar_ok.1 a2.1
      cases hc : c.cp with
      | nil => rw [hc] at h2; simp [lookup] at h2
      | cons y t =>
        rw [hc] at h1
        simp only [List.drop_zero, List.cons_prefix_cons, List.prefix_nil] at h1
        rw [h1.1, h1.2]
    have hm : Maps h.g1 [x] v := ⟨c, by rw [← hcx]; exact getChar_ok.1 a2.1, a4.1⟩
    have hvx : v.cp = [x] := by rw [a4.2.1, hcx]
    have := k.new v (by rw [hvx]; exact hx1) (by rw [hvx]; exact hm)
    rw [this] at a5
    exact a5.symm
  refine ⟨d, only, s, hd, k3, k4, k5, ?_⟩
  intro ha
  have hno : ∀ t, t ≠ "out-of-repertoire" → some t ∉ d := by
    intro t ht hm
    exact ht (Option.some.inj (hd _ hm))
  have hall : ¬ (¬ d = [] ∧ ∀ x ∈ d, x = some "activated") := by
    rintro ⟨h1, h2⟩
    obtain ⟨t, ts, rfl⟩ := List.exists_cons_of_ne_nil h1
    have h3 := hd t (by simp)
    rw [h2 t (by simp)] at h3
    simp at h3
  have := decides_iff.2 k3
  rcases ha with rfl | rfl <;>
  · simp [applyActions, effectiveActions, defaultActions, oorAction, applyLoop, Action.apply, Action.ruleMatched,
      Action.variantMatched, hno] at this
    rw [if_neg hall] at this
    simp at this
    exact this.1.symm
end

/-! ## Witnesses -/

/-- `a` alone, with the action against `out-of-repertoire-var`. -/
def oneOps : List (Ctx × LGR.Op) := [(C27.ctx, .addCp (.int 97) {})]

/-- `a` with the variant `b`. -/
def twoOps : List (Ctx × LGR.Op) :=
  [(C27.ctx, .addCp (.int 97) {}), (C27.ctx, .addCp (.int 98) {}),
   (C27.ctx, .addVariant (.int 97) (.int 98) (some "blocked") {})]

/-- `a` and `bc`. -/
def seqOps : List (Ctx × LGR.Op) := [(C27.ctx, .addCp (.int 97) {}), (C27.ctx, .addCp (.seq [98, 99]) {})]

/-- `a` with the variant `ab`. -/
def abOps : List (Ctx × LGR.Op) :=
  [(C27.ctx, .addCp (.int 97) {}), (C27.ctx, .addCp (.seq [97, 98]) {}),
   (C27.ctx, .addVariant (.int 97) (.seq [97, 98]) (some "blocked") {})]

/-- What the test says of a label with the first LGR before and after harmonising it with the second. -/
def beforeAfter (ops ops' : List (Ctx × LGR.Op)) (label : Seq) : Option (Bool × Bool) :=
  match envT.testEligible (LGR.run {} ops).rep [oorAction] label,
    harmonize ord0 9 none none (LGR.run {} ops) (LGR.run {} ops') none with
  | .ok el, some (.ok h) =>
    match envT.testEligible h.g1.rep [oorAction] label with
    | .ok el' => some (el.ok, el'.ok)
    | .error _ => none
  | _, _ => none

/-- **C135** is violated: `b` is not in the first LGR; after harmonising it is a valid label, despite the
action against code points out of repertoire. -/
theorem new_label_wrong : beforeAfter oneOps twoOps [98] = some (false, true) := by decide +kernel

/-- **C135** is violated: `abc` was `a` followed by `bc`; after harmonising, the longest match is `ab`, and the
label is no longer valid. -/
theorem label_lost_wrong : beforeAfter seqOps abOps [97, 98, 99] = some (true, false) := by decide +kernel

/-! Non-vacuity: labels without added code points. -/
example : beforeAfter oneOps twoOps [97] = some (true, true) := by decide +kernel
example : beforeAfter twoOps oneOps [98] = some (true, true) := by decide +kernel
example : beforeAfter oneOps twoOps [99] = some (false, false) := by decide +kernel

end Lgr.Props.C135

import Verif.Props.PopulateLabels
import Verif.Props.IndexClass

/-!
# C134: collisions after populating
-/

namespace Lgr.Props.C134
open Lgr LGR Repertoire FullEnv C50 C26 Populate C28

/-- An entry, or the variant of one. -/
def Known (g : LGR) (x : Seq) : Prop := In g x ∨ ∃ a, Pair g a x

theorem varRel_pair {g : LGR} {x y : Seq} : VarRel g.rep x y ↔ Pair g x y := by
  unfold VarRel Pair Maps
  constructor
  · rintro ⟨c, hc, v, hv, he⟩
    exact ⟨v, ⟨c, getChar_ok.1 hc, hv⟩, he⟩
  · rintro ⟨v, ⟨c, hc, hv⟩, he⟩
    exact ⟨c, getChar_ok.2 hc, v, hv, he⟩

theorem getChar_known {g g' : LGR} (hi : ∀ x, In g' x ↔ In g x ∨ ∃ a, Pair g a x) {x : Seq} :
    (∃ c, g'.rep.getChar x = .ok c) ↔ Known g x := by
  rw [Known, ← hi x]
  exact exists_congr fun c => getChar_ok

/-- Least elements are equal just if the classes are, position by position. -/
theorem least_iff {r : Repertoire} (hs : SymmetricR r) (ht : TransitiveR r) {cs : List CharObj} {ms : List Seq}
    (h : List.Forall₂ (LeastOf r) cs ms) : ∀ {ds : List CharObj} {ns : List Seq},
    List.Forall₂ (LeastOf r) ds ns → (ms = ns ↔ List.Forall₂ (fun c d => Cls r c.cp d.cp) cs ds) := by
  induction h with
  | nil =>
    intro ds ns h2
    cases h2 <;> simp
  | @cons c m cs ms hm _ ih =>
    intro ds ns h2
    cases h2 with
    | nil => simp
    | @cons d n ds ns hn h2 =>
      rw [List.cons.injEq, List.forall₂_cons, ih h2]
      refine and_congr_left fun _ => ⟨?_, fun hc => ?_⟩
      · rintro rfl
        exact Cls.trans ht hm.1 (Cls.symm hs hn.1)
      · exact ((least_congr hs ht hc).1 hm).unique hn

/-- **C134** Let no variant have a context rule, and no entry or variant be the beginning of another one.
After populating, two accepted labels have the same index label just if they are written with entries
and variants which are position by position in the same variant set, that is joined by a chain of
variant mappings of the LGR as it was before, in either direction. Missing for the full property:
conditional variants, and entries which begin other ones, where it is false (`collision_missed_wrong`). -/
theorem populate_collisions_partial (db : UniDb) (n : Nat) (g g' : LGR) (hwf : WF g.rep)
    (h : populate db n g = some (g', .ok ()))
    (hu : ∀ x v, Maps g x v → v.whenR = none ∧ v.notWhenR = none)
    (hpf : ∀ x y, Known g x → Known g y → x <+: y → x = y)
    (env : FullEnv) (hr : ∀ x c, g.rep.lookup x = some c →
      ∀ w, c.attrs.whenR = some w ∨ c.attrs.notWhenR = some w → ∀ l a i, ∃ b, env.ruleMatches w l a i = .ok b)
    (l l' : Seq) (hl : l ≠ []) (hl' : l' ≠ []) (ha : Accepted env g'.rep l) (ha' : Accepted env g'.rep l') :
    ∃ i i', env.indexLabel g'.rep l 0 = .ok i ∧ env.indexLabel g'.rep l' 0 = .ok i' ∧
      (i = i' ↔ ∃ xs ys : List Seq, xs.flatten = l ∧ ys.flatten = l' ∧ (∀ x ∈ xs, Known g x) ∧
        (∀ y ∈ ys, Known g y) ∧ List.Forall₂ (Relation.EqvGen (Pair g)) xs ys) := by
  obtain ⟨w, gr, hi, -, -, hs, ht, -⟩ :=
    populate_spec (R := fun _ _ => True) ⟨by simp, by simp⟩ hwf (by simp) h
  have hex := (C29.populate_exact_partial db n g g' hwf h).2
  have hs' : SymmetricR g'.rep := fun x y hxy => varRel_pair.2 (hs _ _ (varRel_pair.1 hxy))
  have ht' : TransitiveR g'.rep := fun x y z h1 h2 hz =>
    varRel_pair.2 (ht _ _ _ (varRel_pair.1 h1) (varRel_pair.1 h2) (Ne.symm hz))
  have hnone : ∀ x v, Maps g' x v → v.whenR = none ∧ v.notWhenR = none := by
    intro x v hv
    have key : ∀ s, ¬ (v.whenR = some s ∨ v.notWhenR = some s) := by
      intro s hsv
      obtain ⟨x0, v0, h0, h1⟩ := gr.used s ⟨x, v, hv, hsv⟩
      rcases h1 with h1 | h1
      · rw [(hu _ _ h0).1] at h1; cases h1
      · rw [(hu _ _ h0).2] at h1; cases h1
    exact ⟨Option.eq_none_iff_forall_ne_some.2 fun s hsv => key s (.inl hsv),
      Option.eq_none_iff_forall_ne_some.2 fun s hsv => key s (.inr hsv)⟩
  have hu' : Unconditional g'.rep := fun c hc v hv => hnone c.cp v ⟨c, getChar_ok.1 hc, hv⟩
  have hpf' : C14.PrefixFree g'.rep := by
    intro c d hc hd hcd
    have he := hpf c.cp d.cp ((getChar_known hi).1 ⟨c, hc⟩) ((getChar_known hi).1 ⟨d, hd⟩) hcd
    rw [he, hd] at hc
    cases hc; rfl
  have hd' : RulesDefined env.toEnv g'.rep := by
    refine ⟨fun c hc s hsc => ?_, fun c hc v hv s hsv => ?_⟩
    · cases hg : g.rep.lookup c.cp with
      | none =>
        have := (gr.fresh c.cp c hg (getChar_ok.1 hc)).1
        rw [this] at hsc
        simp at hsc
      | some c0 =>
        obtain ⟨c1, h1, h2, -⟩ := gr.keep c.cp c0 hg
        rw [getChar_ok.1 hc] at h1
        cases h1
        rw [h2] at hsc
        exact hr c.cp c0 hg s hsc
    · obtain ⟨h1, h2⟩ := hnone c.cp v ⟨c, getChar_ok.1 hc, hv⟩
      rw [h1, h2] at hsv
      simp at hsv
  obtain ⟨p, hp, hok⟩ := ha
  obtain ⟨p', hp', hok'⟩ := ha'
  obtain ⟨i, hii, -⟩ := C17.index_of_accepted w hd' hl hp hok
  obtain ⟨i', hii', -⟩ := C17.index_of_accepted w hd' hl' hp' hok'
  refine ⟨i, i', hii, hii', ?_⟩
  obtain ⟨ms, hms, rfl⟩ := index_classes w hpf' hu' hl hp hok hd' hii
  obtain ⟨ms', hms', rfl⟩ := index_classes w hpf' hu' hl' hp' hok' hd' hii'
  have hseg := (C13.accepted_is_segmentation w hp hok).1
  have hseg' := (C13.accepted_is_segmentation w hp' hok').1
  have hcls : ∀ x y, Cls g'.rep x y ↔ Relation.EqvGen (Pair g) x y := by
    intro x y
    unfold Cls
    rw [varRel_pair, hex]
    constructor
    · rintro (rfl | h1 | h1)
      · exact .refl _
      · exact .rel _ _ h1
      · exact h1.2
    · intro h1
      by_cases hxy : x = y
      · exact .inl hxy
      · exact .inr (.inr ⟨hxy, h1⟩)
  have hflat : ms.flatten = ms'.flatten ↔ ms = ms' :=
    ⟨flatten_unique hpf' (least_stored hs' hseg.stored hms) (least_stored hs' hseg'.stored hms'),
      fun h => by rw [h]⟩
  have hknown : ∀ cs : List CharObj, (∀ c ∈ cs, g'.rep.getChar c.cp = .ok c) →
      ∀ x ∈ cs.map CharObj.cp, Known g x := by
    intro cs hcs x hx
    obtain ⟨c, hc, rfl⟩ := List.mem_map.1 hx
    exact (getChar_known hi).1 ⟨c, hcs c hc⟩
  rw [hflat, least_iff hs' ht' hms hms']
  constructor
  · intro hf
    refine ⟨p.chars.map CharObj.cp, p'.chars.map CharObj.cp, hseg.concat, hseg'.concat,
      hknown _ hseg.stored, hknown _ hseg'.stored, ?_⟩
    rw [List.forall₂_map_left_iff, List.forall₂_map_right_iff]
    exact hf.imp fun c d hcd => (hcls _ _).1 hcd
  · rintro ⟨xs, ys, h1, h2, h3, h4, h5⟩
    have e1 : xs = p.chars.map CharObj.cp := flatten_unique hpf'
      (fun x hx => (getChar_known hi).2 (h3 x hx))
      (fun x hx => (getChar_known hi).2 (hknown _ hseg.stored x hx))
      (h1.trans hseg.concat.symm)
    have e2 : ys = p'.chars.map CharObj.cp := flatten_unique hpf'
      (fun x hx => (getChar_known hi).2 (h4 x hx))
      (fun x hx => (getChar_known hi).2 (hknown _ hseg'.stored x hx))
      (h2.trans hseg'.concat.symm)
    rw [e1, e2, List.forall₂_map_left_iff, List.forall₂_map_right_iff] at h5
    exact h5.imp fun c d hcd => (hcls _ _).2 hcd

/-- The index labels of two labels before and after populating. -/
def indexes (ops : List (LGR.Ctx × LGR.Op)) (l l' : Seq) : Option (List (Except Err Seq)) :=
  match populate none 9 (LGR.run {} ops) with
  | some (g', .ok ()) => some [C133.envT.indexLabel (LGR.run {} ops).rep l 0,
      C133.envT.indexLabel (LGR.run {} ops).rep l' 0, C133.envT.indexLabel g'.rep l 0,
      C133.envT.indexLabel g'.rep l' 0]
  | _ => none

/-- `p` → `a`, `q` → `b`, `ab` → `A`, nothing else. -/
def overOps : List (LGR.Ctx × LGR.Op) :=
  [(C27.ctx, .addCp (.int 97) {}), (C27.ctx, .addCp (.int 98) {}), (C27.ctx, .addCp (.int 112) {}),
   (C27.ctx, .addCp (.int 113) {}), (C27.ctx, .addCp (.seq [97, 98]) {}), (C27.ctx, .addCp (.int 65) {}),
   (C27.ctx, .addVariant (.int 112) (.int 97) none {}), (C27.ctx, .addVariant (.int 113) (.int 98) none {}),
   (C27.ctx, .addVariant (.seq [97, 98]) (.int 65) none {})]

/-- **C134** is violated when an entry begins another one: `p` and `a`, `q` and `b` are variants, but after
populating the labels `pq` and `ab` have different index labels. -/
theorem collision_missed_wrong :
    Pair (LGR.run {} overOps) [112] [97] ∧ Pair (LGR.run {} overOps) [113] [98] ∧
    indexes overOps [112, 113] [97, 98] =
      some [.ok [97, 98], .ok [65], .ok [97, 98], .ok [65]] :=
  ⟨⟨_, ⟨_, by rfl, List.mem_singleton.2 rfl⟩, by rfl⟩, ⟨_, ⟨_, by rfl, List.mem_singleton.2 rfl⟩, by rfl⟩,
    by decide +kernel⟩

/-! Non-vacuity: `c` → `a` and `c` → `b`, where `a` is missing and `b` has no mapping. Before populating,
`bb` has itself as index label and `ac` is not in the LGR; afterwards they have the same index label. -/

def starOps : List (LGR.Ctx × LGR.Op) :=
  [(C27.ctx, .addCp (.int 98) {}), (C27.ctx, .addCp (.int 99) {}), (C27.ctx, .addVariant (.int 99) (.int 97) none {}),
   (C27.ctx, .addVariant (.int 99) (.int 98) none {})]

example : indexes starOps [98, 98] [97, 99] =
    some [.ok [98, 98], .error (.notInLGR [97]), .ok [97, 97], .ok [97, 97]] := by decide +kernel

end Lgr.Props.C134

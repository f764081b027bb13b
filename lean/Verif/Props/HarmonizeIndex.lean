import Verif.Props.HarmonizeLabels
import Verif.Props.IndexClass

/-!
# C136: index labels after harmonising
-/

namespace Lgr.Props.C136
open Lgr LGR Repertoire FullEnv C50 C26 Populate C28 C46 C133 Harmonize Compare

theorem varRel_edge {g : LGR} {x y : Seq} : VarRel g.rep x y ↔ (graph g).edge x y := by
  unfold VarRel graph
  exact exists_congr fun c => and_congr_left fun _ => getChar_ok

theorem keeps_none {g p : LGR} (k : Keeps g p) (hu : ∀ x v, Maps g x v → v.whenR = none ∧ v.notWhenR = none)
    (x : Seq) (v : Variant) (hv : Maps p x v) : v.whenR = none ∧ v.notWhenR = none := by
  have key : ∀ s, ¬ (v.whenR = some s ∨ v.notWhenR = some s) := by
    intro s hsv
    obtain ⟨x0, v0, h0, h1⟩ := k.used s ⟨x, v, hv, hsv⟩
    rcases h1 with h1 | h1
    · rw [(hu _ _ h0).1] at h1; cases h1
    · rw [(hu _ _ h0).2] at h1; cases h1
  exact ⟨Option.eq_none_iff_forall_ne_some.2 fun s hsv => key s (.inl hsv),
    Option.eq_none_iff_forall_ne_some.2 fun s hsv => key s (.inr hsv)⟩

theorem keeps_rules {env : Env} {g p : LGR} (k : Keeps g p) (hd : RulesDefined env g.rep) :
    RulesDefined env p.rep := by
  refine ⟨fun c hc s hsc => ?_, fun c hc v hv s hsv => ?_⟩
  · cases hg : g.rep.lookup c.cp with
    | none =>
      rcases k.fresh c.cp c hg (getChar_ok.1 hc) with h1 | h1 <;> rw [h1] at hsc <;> simp at hsc
    | some c0 =>
      obtain ⟨c1, h1, h2⟩ := k.keep c.cp c0 hg
      rw [getChar_ok.1 hc] at h1
      cases h1
      rw [h2] at hsc
      exact hd.1 c0 (by rw [getChar_ok, lookup_cp hg]; exact hg) s hsc
  · obtain ⟨x, u, ⟨c0, h0, h1⟩, h2⟩ := k.used s ⟨c.cp, v, ⟨c, getChar_ok.1 hc, hv⟩, hsv⟩
    exact hd.2 c0 (by rw [getChar_ok, lookup_cp h0]; exact h0) u h1 s h2

/-- The cases of one LGR of the result. -/
theorem keeps_index {env : FullEnv} {g p : LGR} (w : WF p.rep) (k : Keeps g p)
    (hu : ∀ x v, Maps g x v → v.whenR = none ∧ v.notWhenR = none) (hd : RulesDefined env.toEnv g.rep)
    (hpf : ∀ x y, In p x → In p y → x <+: y → x = y) {l : Seq} (hl : l ≠ []) (ha : Accepted env p.rep l) :
    ∃ (cs : List CharObj) (ms : List Seq), (∀ c ∈ cs, p.rep.getChar c.cp = .ok c) ∧
      cs.flatMap CharObj.cp = l ∧ List.Forall₂ (LeastOf p.rep) cs ms ∧
      env.indexLabel p.rep l 0 = .ok ms.flatten := by
  have hu' : Unconditional p.rep := fun c hc v hv => keeps_none k hu c.cp v ⟨c, getChar_ok.1 hc, hv⟩
  have hpf' : C14.PrefixFree p.rep := by
    intro c d hc hd hcd
    have he := hpf c.cp d.cp ⟨c, getChar_ok.1 hc⟩ ⟨d, getChar_ok.1 hd⟩ hcd
    rw [he, hd] at hc
    cases hc; rfl
  have hd' := keeps_rules k hd
  obtain ⟨q, hq, hok⟩ := ha
  obtain ⟨i, hii, -⟩ := C17.index_of_accepted w hd' hl hq hok
  obtain ⟨ms, hms, rfl⟩ := index_classes w hpf' hu' hl hq hok hd' hii
  have hseg := (C13.accepted_is_segmentation w hq hok).1
  exact ⟨q.chars, ms, hseg.stored, hseg.concat, hms, hii⟩

/-- Sequences of a set none of which begins another one write a label in one way. -/
theorem made_once {P : Seq → Prop} (hn : ¬ P []) (hpf : ∀ x y, P x → P y → x <+: y → x = y) :
    ∀ {xs ys : List Seq}, (∀ x ∈ xs, P x) → (∀ y ∈ ys, P y) → xs.flatten = ys.flatten → xs = ys
  | [], [], _, _, _ => rfl
  | [], y :: ys, _, h2, h => by
    simp only [List.flatten_nil, List.flatten_cons] at h
    have := (List.append_eq_nil_iff.1 h.symm).1
    exact absurd (this ▸ h2 y (by simp)) hn
  | x :: xs, [], h1, _, h => by
    simp only [List.flatten_nil, List.flatten_cons] at h
    have := (List.append_eq_nil_iff.1 h).1
    exact absurd (this ▸ h1 x (by simp)) hn
  | x :: xs, y :: ys, h1, h2, h => by
    rw [List.flatten_cons, List.flatten_cons] at h
    have hx := h1 x (by simp)
    have hy := h2 y (by simp)
    have hxy : x = y := by
      rcases Nat.le_total x.length y.length with hle | hle
      · exact hpf x y hx hy (List.prefix_of_prefix_length_le (List.prefix_append x xs.flatten)
          (h ▸ List.prefix_append y ys.flatten) hle)
      · exact (hpf y x hy hx (List.prefix_of_prefix_length_le (List.prefix_append y ys.flatten)
          (h ▸ List.prefix_append x xs.flatten) hle)).symm
    subst hxy
    rw [made_once hn hpf (fun z hz => h1 z (List.mem_cons_of_mem _ hz))
      (fun z hz => h2 z (List.mem_cons_of_mem _ hz)) (List.append_cancel_left h)]

/-- **C136** Let no variant of the LGRs have a context rule, both be symmetric and transitive or harmonised
with a root zone LGR, and no entry of the results begin another one. A label which both results accept
has the same index label in both. Missing for the full property: conditional variants, and entries which begin
others, where it is false (`index_differs_wrong`). -/
theorem harmonize_index_partial (ord : SetOrder) (n : Nat) (db1 db2 : UniDb) (g1 g2 : LGR) (hw1 : WF g1.rep)
    (hw2 : WF g2.rep) (hi1 : Intact g1.rep) (hi2 : Intact g2.rep) (h : Harmonized)
    (rz : Option (UniDb × LGR)) (hz : ∀ z ∈ rz, WF z.2.rep ∧ Intact z.2.rep)
    (hr : harmonize ord n db1 db2 g1 g2 rz = some (.ok h))
    (hc : rz = none → (graph g1).Closed ∧ (graph g2).Closed)
    (hu1 : ∀ x v, Maps g1 x v → v.whenR = none ∧ v.notWhenR = none)
    (hu2 : ∀ x v, Maps g2 x v → v.whenR = none ∧ v.notWhenR = none)
    (hpf : ∀ x y, In h.g1 x ∨ In h.g2 x → In h.g1 y ∨ In h.g2 y → x <+: y → x = y)
    (env1 env2 : FullEnv) (hd1 : RulesDefined env1.toEnv g1.rep) (hd2 : RulesDefined env2.toEnv g2.rep)
    (l : Seq) (hl : l ≠ []) (ha1 : Accepted env1 h.g1.rep l) (ha2 : Accepted env2 h.g2.rep l) :
    ∃ i, env1.indexLabel h.g1.rep l 0 = .ok i ∧ env2.indexLabel h.g2.rep l 0 = .ok i := by
  obtain ⟨⟨w1, w2⟩, k1, k2, -⟩ := harmonize_spec hw1 hw2 hi1 hi2 hz hr
  obtain ⟨cs, ms, s1, t1, m1, e1⟩ := keeps_index w1 k1 hu1 hd1 (fun x y hx hy => hpf x y (.inl hx) (.inl hy)) hl ha1
  obtain ⟨ds, ns, s2, t2, m2, e2⟩ := keeps_index w2 k2 hu2 hd2 (fun x y hx hy => hpf x y (.inr hx) (.inr hy)) hl ha2
  have hin1 : ∀ x ∈ cs.map CharObj.cp, In h.g1 x := by
    intro x hx
    obtain ⟨c, hc, rfl⟩ := List.mem_map.1 hx
    exact ⟨c, getChar_ok.1 (s1 c hc)⟩
  have hin2 : ∀ x ∈ ds.map CharObj.cp, In h.g2 x := by
    intro x hx
    obtain ⟨c, hc, rfl⟩ := List.mem_map.1 hx
    exact ⟨c, getChar_ok.1 (s2 c hc)⟩
  have hn : ¬ (In h.g1 [] ∨ In h.g2 []) := by
    rintro (⟨c, hc⟩ | ⟨c, hc⟩) <;> simp [lookup] at hc
  have hsame : cs.map CharObj.cp = ds.map CharObj.cp :=
    made_once (P := fun x => In h.g1 x ∨ In h.g2 x) hn hpf (fun x hx => .inl (hin1 x hx))
      (fun x hx => .inr (hin2 x hx)) (by rw [← List.flatMap_def, ← List.flatMap_def, t1, t2])
  have hcls : ∀ x, In h.g1 x → In h.g2 x → { y | Cls h.g1.rep x y } = { y | Cls h.g2.rep x y } := by
    intro x hx1 hx2
    ext y
    show Cls h.g1.rep x y ↔ Cls h.g2.rep x y
    unfold Cls
    rw [varRel_edge, varRel_edge]
    by_cases hxy : x = y
    · simp [hxy]
    · simp only [hxy, false_or]
      exact harmonize_agree_partial ord n db1 db2 g1 g2 hw1 hw2 hi1 hi2 h rz hz hr hc x y hx1 hx2 hxy
  have hms : ms = ns := by
    clear t1 t2 e1 e2
    induction m1 generalizing ds ns with
    | nil =>
      cases m2 with
      | nil => rfl
      | cons _ _ => simp at hsame
    | @cons c m cs ms hm _ ih =>
      cases m2 with
      | nil => simp at hsame
      | @cons d n' ds ns hn' m2 =>
        simp only [List.map_cons, List.cons.injEq] at hsame
        have e : m = n' := by
          unfold LeastOf at hm hn'
          rw [hcls c.cp (hin1 _ (by simp)) (by rw [hsame.1]; exact hin2 _ (by simp)), hsame.1] at hm
          exact hm.unique hn'
        rw [e, ih (fun c hc => s1 c (List.mem_cons_of_mem _ hc)) ds ns
          (fun c hc => s2 c (List.mem_cons_of_mem _ hc)) m2
          (fun x hx => hin1 x (by simp only [List.map_cons]; exact List.mem_cons_of_mem _ hx))
          (fun x hx => hin2 x (by simp only [List.map_cons]; exact List.mem_cons_of_mem _ hx)) hsame.2]
  exact ⟨ms.flatten, e1, by rw [hms]; exact e2⟩

/-! ## Witnesses -/

/-- The index labels of a label in both LGRs before harmonising, and in both after. -/
def indexes (ops ops' : List (Ctx × LGR.Op)) (l : Seq) : Option (List (Except Err Seq)) :=
  match harmonize ord0 9 none none (LGR.run {} ops) (LGR.run {} ops') none with
  | some (.ok h) => some [envT.indexLabel (LGR.run {} ops).rep l 0, envT.indexLabel (LGR.run {} ops').rep l 0,
      envT.indexLabel h.g1.rep l 0, envT.indexLabel h.g2.rep l 0]
  | _ => none

/-- `a` and `b`. -/
def abOps : List (Ctx × LGR.Op) := [(C27.ctx, .addCp (.int 97) {}), (C27.ctx, .addCp (.int 98) {})]

/-- `a`, `b`, and `ab` with the variant `A` and conversely. -/
def upOps : List (Ctx × LGR.Op) :=
  [(C27.ctx, .addCp (.int 97) {}), (C27.ctx, .addCp (.int 98) {}), (C27.ctx, .addCp (.seq [97, 98]) {}),
   (C27.ctx, .addCp (.int 65) {}), (C27.ctx, .addVariant (.seq [97, 98]) (.int 65) none {}),
   (C27.ctx, .addVariant (.int 65) (.seq [97, 98]) none {})]

/-- **C136** is violated when an entry begins another one: after harmonising, `ab` has the index label `ab`
in the first LGR and `A` in the second, though both are symmetric and transitive and accept it. -/
theorem index_differs_wrong :
    indexes abOps upOps [97, 98] = some [.ok [97, 98], .ok [65], .ok [97, 98], .ok [65]] := by decide +kernel

/-- `b` alone. -/
def bOps : List (Ctx × LGR.Op) := [(C27.ctx, .addCp (.int 98) {})]

/-- `a` and `b`, variants of each other. -/
def baOps : List (Ctx × LGR.Op) :=
  abOps ++ [(C27.ctx, .addVariant (.int 97) (.int 98) none {}), (C27.ctx, .addVariant (.int 98) (.int 97) none {})]

/-! Non-vacuity: `b` has different index labels before, the same afterwards. -/
example : indexes bOps baOps [98] = some [.ok [98], .ok [97], .ok [97], .ok [97]] := by decide +kernel

end Lgr.Props.C136

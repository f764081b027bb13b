import Verif.Validate
import Verif.Props.LgrState
import Verif.Props.RepertoireIter
import Verif.Props.Rfc7940

/-!
# C26, C27, C52: the symmetry and transitivity checks are exact
-/

namespace Lgr.Props.C26
open Lgr LGR Repertoire Validate C50

/-- `v` is a variant of the entry `a`. -/
def Maps (g : LGR) (a : Seq) (v : Variant) : Prop :=
  ∃ c, g.rep.lookup a = some c ∧ v ∈ c.getVariants

/-- `a` is in the LGR. -/
def In (g : LGR) (a : Seq) : Prop := ∃ c, g.rep.lookup a = some c

/-- What a stretch of a check adds to its local variables. -/
structure Adds {ε : Type} (acc acc' : Acc ε) (E : ε → Prop) (S : Prop) (N : Note → Prop) : Prop where
  entries : ∀ e, e ∈ acc'.entries ↔ e ∈ acc.entries ∨ E e
  success : acc'.success = true ↔ acc.success = true ∧ S
  notes : ∀ n, n ∈ acc'.notes ↔ n ∈ acc.notes ∨ N n

theorem Adds.congr {ε : Type} {acc acc' : Acc ε} {E E' : ε → Prop} {S S' : Prop} {N N' : Note → Prop}
    (h : Adds acc acc' E S N) (hE : ∀ e, E e ↔ E' e) (hS : S ↔ S') (hN : ∀ n, N n ↔ N' n) :
    Adds acc acc' E' S' N' :=
  ⟨fun e => by rw [h.entries, hE], by rw [h.success, hS], fun n => by rw [h.notes, hN]⟩

theorem adds_none {ε : Type} (acc : Acc ε) : Adds acc acc (fun _ => False) True (fun _ => False) :=
  ⟨by simp, by simp, by simp⟩

theorem adds_fail {ε : Type} (acc : Acc ε) (e : ε) (l : String) :
    Adds acc (acc.fail e l) (fun x => x = e) False (fun n => n = .error l) :=
  ⟨by simp [Acc.fail], by simp [Acc.fail], by simp [Acc.fail]⟩

theorem forEach_adds {α ε : Type} {f : Acc ε → α → Acc ε × Except Err Unit} {E : α → ε → Prop}
    {S : α → Prop} {N : α → Note → Prop} (l : List α)
    (h : ∀ acc, ∀ x ∈ l, ∀ acc', f acc x = (acc', .ok ()) → Adds acc acc' (E x) (S x) (N x))
    {acc acc' : Acc ε} (he : forEach f acc l = (acc', .ok ())) :
    Adds acc acc' (fun e => ∃ x ∈ l, E x e) (∀ x ∈ l, S x) (fun n => ∃ x ∈ l, N x n) := by
  induction l generalizing acc with
  | nil =>
    simp only [forEach, Prod.mk.injEq, and_true] at he
    subst he
    exact (adds_none acc).congr (by simp) (by simp) (by simp)
  | cons x l ih =>
    simp only [forEach] at he
    split at he
    · simp at he
    rename_i acc1 h1
    have a1 := h acc x (by simp) acc1 h1
    have a2 := ih (fun acc y hy => h acc y (by simp [hy])) he
    refine ⟨fun e => ?_, ?_, fun n => ?_⟩
    · rw [a2.entries, a1.entries]; simp [or_assoc]
    · rw [a2.success, a1.success]; simp [and_assoc]
    · rw [a2.notes, a1.notes]; simp [or_assoc]

theorem forEach_ok_iff {σ α : Type} {f : σ → α → σ × Except Err Unit} {O : α → Prop} (l : List α)
    (h : ∀ s, ∀ x ∈ l, (f s x).2 = .ok () ↔ O x) (s : σ) :
    (forEach f s l).2 = .ok () ↔ ∀ x ∈ l, O x := by
  induction l generalizing s with
  | nil => simp [forEach]
  | cons x l ih =>
    have hx := h s x (by simp)
    simp only [forEach, List.mem_cons, forall_eq_or_imp]
    rw [← hx]
    split
    · rename_i s' e h1; rw [h1]; simp
    · rename_i s' h1
      rw [h1, ih (fun s y hy => h s y (by simp [hy]))]; simp

theorem iter_mem {r : Repertoire} (h : WF r) {c : CharObj} (hc : c ∈ r.iter) :
    r.lookup c.cp = some c := by
  have hs := C03.iterKeys_sublist r none (sortAsc id (r.dict.map Prod.fst))
  exact getChar_ok.1 ((C03.mem_full h c).1 (hs.subset hc))

theorem mem_iter {r : Repertoire} (h : WF r) {k : Seq} {c : CharObj} (hc : r.lookup k = some c)
    (hr : c.range = none) : c ∈ r.iter := by
  have : c.cp = k := lookup_cp hc
  subst this
  exact (C03.iterKeys_nonrange _ _ _ c hr).2 ((C03.mem_full h c).2 (getChar_ok.2 hc))

theorem variant_ne {c : CharObj} (h : c.VarWF) {v : Variant} (hv : v ∈ c.getVariants) : v.cp ≠ [] := by
  obtain ⟨vs, h1, _⟩ := (CharObj.mem_getVariants h v).1 hv
  exact (h.nonempty _ (mem_of_dget h1)).2

theorem variant_nonrange {c : CharObj} (h : c.VarWF) {v : Variant} (hv : v ∈ c.getVariants) :
    c.range = none := by
  cases hr : c.range with
  | none => rfl
  | some p =>
    obtain ⟨vs, h1, _⟩ := (CharObj.mem_getVariants h v).1 hv
    rw [h.range (by simp [hr])] at h1
    simp [dget] at h1

/-- The pairs visited by the two nested loops are the variant mappings. -/
theorem visited {g : LGR} (h : WF g.rep) (P : Seq → Variant → Prop) :
    (∃ a ∈ g.rep.iter, a.isRange = false ∧ ∃ v ∈ a.getVariants, P a.cp v) ↔
      ∃ a v, Maps g a v ∧ P a v := by
  constructor
  · rintro ⟨a, ha, -, v, hv, hp⟩
    exact ⟨a.cp, v, ⟨a, iter_mem h ha, hv⟩, hp⟩
  · rintro ⟨a, v, ⟨c, hl, hv⟩, hp⟩
    have hr := variant_nonrange (lookup_charWF h hl).varWF hv
    refine ⟨c, mem_iter h hl hr, by simp [CharObj.isRange, hr], v, hv, ?_⟩
    rw [lookup_cp hl]; exact hp

theorem visited_all {g : LGR} (h : WF g.rep) (P : Seq → Variant → Prop) :
    (∀ a ∈ g.rep.iter, a.isRange = false → ∀ v ∈ a.getVariants, P a.cp v) ↔
      ∀ a v, Maps g a v → P a v := by
  have := visited h (fun a v => ¬ P a v)
  constructor
  · intro h1 a v hm
    by_contra hp
    obtain ⟨c, h2, h3, v, h4, h5⟩ := this.2 ⟨a, v, hm, hp⟩
    exact h5 (h1 c h2 h3 v h4)
  · intro h1 a ha hr v hv
    by_contra hp
    obtain ⟨a', v', h2, h3⟩ := this.1 ⟨a, ha, hr, v, hv, hp⟩
    exact h3 (h1 a' v' h2)

theorem getVariants_ok {db : UniDb} {g : LGR} {s : Seq} (hs : s ≠ []) {vs : List Variant} :
    g.getVariants db (.seq s) = .ok vs ↔
      IdnaOk db g s ∧ ∃ c, g.rep.lookup s = some c ∧ c.getVariants = vs := by
  unfold LGR.getVariants
  constructor
  · intro h
    split at h
    · simp at h
    rename_i t ht
    obtain ⟨hd, hi⟩ := checkConvert_ok.1 ht
    cases hd
    unfold Repertoire.getVariants at h
    split at h
    · simp at h
    rename_i c hc
    simp only [Except.ok.injEq] at h
    exact ⟨hi, c, getChar_ok.1 hc, h⟩
  · rintro ⟨hi, c, hl, rfl⟩
    rw [checkConvert_ok.2 ⟨.seq s hs, hi⟩]
    simp [Repertoire.getVariants, getChar_ok.2 hl]

theorem getVariants_ok' {db : UniDb} {g : LGR} {s : Seq} (hs : s ≠ []) :
    (∃ vs, g.getVariants db (.seq s) = .ok vs) ↔ IdnaOk db g s ∧ In g s := by
  simp only [getVariants_ok hs]
  constructor
  · rintro ⟨_, h, c, hc, _⟩; exact ⟨h, c, hc⟩
  · rintro ⟨h, c, hc⟩; exact ⟨_, h, c, hc, rfl⟩

theorem contains_ne {r : Repertoire} {s : Seq} (hs : s ≠ []) : r.contains s = .ok (r.hasCp s) := by
  cases s with
  | nil => exact absurd rfl hs
  | cons i t => rfl

/-- The rule is wanted back and no reverse mapping has it. -/
def Lacks (g : LGR) (a : Seq) (b : Variant) (f : Variant → Option String) : Prop :=
  (∃ s, f b = some s ∧ s ≠ "") ∧ ∀ w, Maps g b.cp w → w.cp = a → f w ≠ f b

/-- What is wrong with the mapping of `a` to `b`. -/
inductive Wrong (g : LGR) (a : Seq) (b : Variant) : SymKind → Prop
  | outside : ¬ In g b.cp → Wrong g a b .notInRepertoire
  | missing : In g b.cp → (∀ w, Maps g b.cp w → w.cp ≠ a) → Wrong g a b .missingSymmetric
  | noWhen : In g b.cp → (∃ w, Maps g b.cp w ∧ w.cp = a) → Lacks g a b Variant.whenR →
      Wrong g a b (.missingRule "when" b.whenR)
  | noNotWhen : In g b.cp → (∃ w, Maps g b.cp w ∧ w.cp = a) → ¬ Lacks g a b Variant.whenR →
      Lacks g a b Variant.notWhenR → Wrong g a b (.missingRule "not-when" b.notWhenR)

/-- The problems reported: without the rules, only the first two kinds. -/
def Reported (ignoreRules : Bool) (k : SymKind) : Prop :=
  ignoreRules = false ∨ k = .notInRepertoire ∨ k = .missingSymmetric

/-- The conformance test a problem counts against. -/
def testOf : SymKind → String
  | .notInRepertoire => "basic_symmetry"
  | .missingSymmetric => "basic_symmetry"
  | .missingRule _ _ => "strict_symmetry"

theorem wrong_unique {g : LGR} {a : Seq} {b : Variant} {k k' : SymKind} (h : Wrong g a b k)
    (h' : Wrong g a b k') : k = k' := by
  cases h with
  | outside h1 =>
    cases h' with
    | outside => rfl
    | missing h2 => exact absurd h2 h1
    | noWhen h2 => exact absurd h2 h1
    | noNotWhen h2 => exact absurd h2 h1
  | missing h1 h2 =>
    cases h' with
    | outside h3 => exact absurd h1 h3
    | missing => rfl
    | noWhen _ h3 => obtain ⟨w, h4, h5⟩ := h3; exact absurd h5 (h2 w h4)
    | noNotWhen _ h3 => obtain ⟨w, h4, h5⟩ := h3; exact absurd h5 (h2 w h4)
  | noWhen h1 h2 h3 =>
    cases h' with
    | outside h4 => exact absurd h1 h4
    | missing _ h4 => obtain ⟨w, h5, h6⟩ := h2; exact absurd h6 (h4 w h5)
    | noWhen => rfl
    | noNotWhen _ _ h4 => exact absurd h3 h4
  | noNotWhen h1 h2 h3 =>
    cases h' with
    | outside h4 => exact absurd h1 h4
    | missing _ h4 => obtain ⟨w, h5, h6⟩ := h2; exact absurd h6 (h4 w h5)
    | noWhen _ _ h4 => exact absurd h4 h3
    | noNotWhen => rfl

/-- What one step of the check adds. -/
abbrev SymAdds (g : LGR) (ign : Bool) (a : Seq) (b : Variant) (acc acc' : Acc SymEntry) : Prop :=
  Adds acc acc'
    (fun e => e.char = a ∧ e.variant = b ∧ Wrong g a b e.kind ∧ Reported ign e.kind)
    (∀ k, Wrong g a b k → ¬ Reported ign k)
    (fun n => ∃ k, Wrong g a b k ∧ Reported ign k ∧ n = .error (testOf k))

theorem symAdds_fail {g : LGR} {ign : Bool} {a : Seq} {b : Variant} {acc : Acc SymEntry} {k : SymKind}
    (hw : Wrong g a b k) (hr : Reported ign k) :
    SymAdds g ign a b acc (acc.fail ⟨a, b, k⟩ (testOf k)) := by
  refine (adds_fail acc _ _).congr ?_ ?_ ?_
  · rintro ⟨x, y, z⟩
    simp only [SymEntry.mk.injEq]
    constructor
    · rintro ⟨rfl, rfl, rfl⟩; exact ⟨rfl, rfl, hw, hr⟩
    · rintro ⟨rfl, rfl, h, _⟩; exact ⟨rfl, rfl, wrong_unique h hw⟩
  · simp only [false_iff, not_forall]
    exact ⟨k, hw, by simpa using hr⟩
  · intro n
    constructor
    · rintro rfl; exact ⟨k, hw, hr, rfl⟩
    · rintro ⟨k', h, _, rfl⟩; rw [wrong_unique h hw]

theorem symAdds_none {g : LGR} {ign : Bool} {a : Seq} {b : Variant} {acc : Acc SymEntry}
    (h : ∀ k, Wrong g a b k → ¬ Reported ign k) : SymAdds g ign a b acc acc := by
  refine (adds_none acc).congr ?_ ?_ ?_
  · intro e; simp only [false_iff]; rintro ⟨_, _, h1, h2⟩; exact h _ h1 h2
  · simp only [true_iff]; exact h
  · intro n; simp only [false_iff]; rintro ⟨k, h1, h2, _⟩; exact h _ h1 h2

theorem truthy_iff {o : Option String} : truthy o = true ↔ ∃ s, o = some s ∧ s ≠ "" := by
  cases o <;> simp [truthy]

theorem in_iff {g : LGR} {s : Seq} : In g s ↔ g.rep.hasCp s = true := by
  rw [hasCp_iff, Option.isSome_iff_exists, In]

theorem symBody_adds {db : UniDb} {g : LGR} {ign : Bool} {a : CharObj}
    {b : Variant} (hb : b.cp ≠ []) {acc acc' : Acc SymEntry}
    (he : symBody db g ign a acc b = (acc', .ok ())) : SymAdds g ign a.cp b acc acc' := by
  unfold symBody at he
  rw [contains_ne hb] at he
  cases hin : g.rep.hasCp b.cp with
  | false =>
    rw [hin] at he
    simp only [Prod.mk.injEq, and_true] at he
    subst he
    exact symAdds_fail (.outside (by rw [in_iff, hin]; simp)) (by simp [Reported])
  | true =>
    have hI : In g b.cp := in_iff.2 hin
    rw [hin] at he
    simp only at he
    split at he
    · simp at he
    rename_i vs hvs
    obtain ⟨hi, c, hl, rfl⟩ := (getVariants_ok hb).1 hvs
    have hm : ∀ w, Maps g b.cp w ↔ w ∈ c.getVariants := by
      intro w; unfold Maps; rw [hl]; simp
    have hrev : ∀ w, w ∈ c.getVariants.filter (fun v => decide (a.cp = v.cp)) ↔
        Maps g b.cp w ∧ w.cp = a.cp := by
      intro w; rw [hm]; simp [eq_comm]
    have lack : ∀ f : Variant → Option String,
        (truthy (f b) && !decide (f b ∈ (c.getVariants.filter (fun v => decide (a.cp = v.cp))).map f)) = true ↔
          Lacks g a.cp b f := by
      intro f
      unfold Lacks
      rw [Bool.and_eq_true, truthy_iff]
      simp only [Bool.not_eq_true', decide_eq_false_iff_not, List.mem_map, not_exists, not_and, hrev]
      constructor
      · rintro ⟨h1, h2⟩; exact ⟨h1, fun w h3 h4 h5 => h2 w ⟨h3, h4⟩ h5⟩
      · rintro ⟨h1, h2⟩; exact ⟨h1, fun w h3 h5 => h2 w h3.1 h3.2 h5⟩
    by_cases h0 : c.getVariants.filter (fun v => decide (a.cp = v.cp)) = []
    · rw [if_pos h0] at he
      simp only [Prod.mk.injEq, and_true] at he
      subst he
      refine symAdds_fail (.missing hI fun w hw hwa => ?_) (by simp [Reported])
      have := (hrev w).2 ⟨hw, hwa⟩
      rw [h0] at this; simp at this
    rw [if_neg h0] at he
    obtain ⟨w0, hw0⟩ := List.exists_mem_of_ne_nil _ h0
    have hw0' := (hrev w0).1 hw0
    by_cases hign : ign = true
    · rw [if_pos hign] at he
      simp only [Prod.mk.injEq, and_true] at he
      subst he
      refine symAdds_none fun k hk hr => ?_
      rcases hr with hr | rfl | rfl
      · simp [hign] at hr
      · cases hk with | outside h => exact h hI
      · cases hk with | missing _ h => exact h w0 hw0'.1 hw0'.2
    rw [if_neg hign] at he
    have hR : ∀ k, Reported ign k := fun k => .inl (by simpa using hign)
    by_cases h1 : (truthy b.whenR && !decide (b.whenR ∈ (c.getVariants.filter (fun v => decide (a.cp = v.cp))).map
        Variant.whenR)) = true
    · rw [if_pos h1] at he
      simp only [Prod.mk.injEq, and_true] at he
      subst he
      exact symAdds_fail (.noWhen hI ⟨w0, hw0'⟩ ((lack _).1 h1)) (hR _)
    rw [if_neg h1] at he
    rw [lack] at h1
    by_cases h2 : (truthy b.notWhenR && !decide (b.notWhenR ∈
        (c.getVariants.filter (fun v => decide (a.cp = v.cp))).map Variant.notWhenR)) = true
    · rw [if_pos h2] at he
      simp only [Prod.mk.injEq, and_true] at he
      subst he
      exact symAdds_fail (.noNotWhen hI ⟨w0, hw0'⟩ h1 ((lack _).1 h2)) (hR _)
    rw [if_neg h2] at he
    rw [lack] at h2
    simp only [Prod.mk.injEq, and_true] at he
    subst he
    refine symAdds_none fun k hk _ => ?_
    cases hk with
    | outside h => exact h hI
    | missing _ h => exact h w0 hw0'.1 hw0'.2
    | noWhen _ _ h => exact h1 h
    | noNotWhen _ _ _ h => exact h2 h

theorem symBody_ok {db : UniDb} {g : LGR} {ign : Bool} {a : CharObj} {b : Variant} (hb : b.cp ≠ [])
    (acc : Acc SymEntry) :
    (symBody db g ign a acc b).2 = .ok () ↔ (In g b.cp → IdnaOk db g b.cp) := by
  unfold symBody
  rw [contains_ne hb]
  cases hin : g.rep.hasCp b.cp with
  | false => simp [in_iff, hin]
  | true =>
    have hI : In g b.cp := in_iff.2 hin
    simp only [hI, true_implies]
    split
    · rename_i e h
      simp only [reduceCtorEq, false_iff]
      intro hi
      obtain ⟨vs, h2⟩ := (getVariants_ok' hb).2 ⟨hi, hI⟩
      rw [h] at h2; cases h2
    · rename_i vs h
      simp only [((getVariants_ok' hb).1 ⟨vs, h⟩).1, iff_true]
      split
      · rfl
      split
      · rfl
      split
      · rfl
      split <;> rfl

theorem symmetry_adds {db : UniDb} {g : LGR} (hwf : WF g.rep) {ign : Bool} {acc' : Acc SymEntry}
    (he : forEach (symChar db g ign) {} g.rep.iter = (acc', .ok ())) :
    (∀ e, e ∈ acc'.entries ↔ Maps g e.char e.variant ∧ Wrong g e.char e.variant e.kind ∧
      Reported ign e.kind) ∧
    (acc'.success = true ↔ ∀ a b k, Maps g a b → Wrong g a b k → ¬ Reported ign k) ∧
    (∀ n, n ∈ acc'.notes ↔ ∃ a b k, Maps g a b ∧ Wrong g a b k ∧ Reported ign k ∧
      n = .error (testOf k)) := by
  have step : ∀ acc, ∀ a ∈ g.rep.iter, ∀ acc', symChar db g ign acc a = (acc', .ok ()) →
      Adds acc acc'
        (fun e => a.isRange = false ∧ ∃ b ∈ a.getVariants, e.char = a.cp ∧ e.variant = b ∧
          Wrong g a.cp b e.kind ∧ Reported ign e.kind)
        (a.isRange = false → ∀ b ∈ a.getVariants, ∀ k, Wrong g a.cp b k → ¬ Reported ign k)
        (fun n => a.isRange = false ∧ ∃ b ∈ a.getVariants, ∃ k, Wrong g a.cp b k ∧ Reported ign k ∧
          n = .error (testOf k)) := by
    intro acc a ha acc' h
    unfold symChar at h
    by_cases hr : a.isRange = true
    · rw [if_pos hr] at h
      simp only [Prod.mk.injEq, and_true] at h
      subst h
      exact (adds_none acc).congr (by simp [hr]) (by simp [hr]) (by simp [hr])
    · rw [if_neg hr] at h
      have hwa := (lookup_charWF hwf (iter_mem hwf ha)).varWF
      have := forEach_adds a.getVariants
        (fun acc b hb acc' h => symBody_adds (variant_ne hwa hb) h) h
      exact this.congr (by simp [hr]) (by simp [hr]) (by simp [hr])
  have := forEach_adds g.rep.iter step he
  refine ⟨fun e => ?_, ?_, fun n => ?_⟩
  · rw [this.entries]
    simp only [List.not_mem_nil, false_or]
    rw [visited hwf (fun a b => e.char = a ∧ e.variant = b ∧ Wrong g a b e.kind ∧ Reported ign e.kind)]
    constructor
    · rintro ⟨a, b, h1, rfl, rfl, h2⟩; exact ⟨h1, h2⟩
    · rintro ⟨h1, h2⟩; exact ⟨_, _, h1, rfl, rfl, h2⟩
  · rw [this.success]
    simp only [true_and]
    rw [visited_all hwf (fun a b => ∀ k, Wrong g a b k → ¬ Reported ign k)]
    exact ⟨fun h a b k h1 => h a b h1 k, fun h a b h1 k => h a b k h1⟩
  · rw [this.notes]
    simp only [List.not_mem_nil, false_or]
    rw [visited hwf (fun a b => ∃ k, Wrong g a b k ∧ Reported ign k ∧ n = .error (testOf k))]
    constructor
    · rintro ⟨a, b, h1, k, h2⟩; exact ⟨a, b, k, h1, h2⟩
    · rintro ⟨a, b, k, h1, h2⟩; exact ⟨a, b, h1, k, h2⟩

theorem checkSymmetry_form {db : UniDb} {g : LGR} {ign : Bool} {s : Bool} {es : List SymEntry}
    (h : (checkSymmetry db g ign).2 = .ok (s, es)) :
    ∃ acc, forEach (symChar db g ign) {} g.rep.iter = (acc, .ok ()) ∧ acc.success = s ∧
      acc.entries = es ∧ (checkSymmetry db g ign).1 =
        acc.notes ++ [.tested "basic_symmetry", .tested "strict_symmetry"] := by
  unfold checkSymmetry at *
  split at h
  · simp at h
  · rename_i acc h1
    simp only [Except.ok.injEq, Prod.mk.injEq] at h
    rw [h1]
    exact ⟨acc, rfl, h.1, h.2, rfl⟩

/-- **C26** The check raises nothing exactly when every variant in the repertoire is an IDNA-valid
sequence (always so without Unicode database). -/
theorem check_symmetry_returns_iff (db : UniDb) (g : LGR) (hwf : WF g.rep) (ign : Bool) :
    (∃ r, (checkSymmetry db g ign).2 = .ok r) ↔
      ∀ a b, Maps g a b → In g b.cp → IdnaOk db g b.cp := by
  have : (forEach (symChar db g ign) {} g.rep.iter).2 = .ok () ↔
      ∀ a ∈ g.rep.iter, a.isRange = false → ∀ b ∈ a.getVariants, In g b.cp → IdnaOk db g b.cp := by
    refine forEach_ok_iff _ (fun acc a ha => ?_) _
    unfold symChar
    by_cases hr : a.isRange = true
    · simp [hr]
    · rw [if_neg hr]
      have hwa := (lookup_charWF hwf (iter_mem hwf ha)).varWF
      rw [forEach_ok_iff a.getVariants (fun acc b hb => symBody_ok (variant_ne hwa hb) acc)]
      simp [hr]
  rw [← visited_all hwf (fun _ b => In g b.cp → IdnaOk db g b.cp), ← this]
  unfold checkSymmetry
  split
  · rename_i h; simp [h]
  · rename_i h; simp [h]

/-- **C26** Ignoring the context rules, the check succeeds exactly when every variant of every entry
is an entry which has that entry among its own variants. -/
theorem check_symmetry_exact (db : UniDb) (g : LGR) (hwf : WF g.rep) (s : Bool) (es : List SymEntry)
    (h : (checkSymmetry db g true).2 = .ok (s, es)) :
    s = true ↔ ∀ a b, Maps g a b → In g b.cp ∧ ∃ w, Maps g b.cp w ∧ w.cp = a := by
  obtain ⟨acc, h1, rfl, -, -⟩ := checkSymmetry_form h
  rw [(symmetry_adds hwf h1).2.1]
  constructor
  · intro hs a b hm
    have hI : In g b.cp := by
      by_contra hI
      exact hs a b _ hm (.outside hI) (by simp [Reported])
    refine ⟨hI, ?_⟩
    by_contra hw
    exact hs a b _ hm (.missing hI fun w h3 h4 => hw ⟨w, h3, h4⟩) (by simp [Reported])
  · intro hs a b k hm hk hr
    obtain ⟨h1, w, h2, h3⟩ := hs a b hm
    rcases hr with hr | rfl | rfl
    · simp at hr
    · cases hk with | outside h => exact h h1
    · cases hk with | missing _ h => exact h w h2 h3

/-- **C26** With the context rules, it must moreover hold that for each context rule of a variant
some reverse mapping has the same rule. -/
theorem check_symmetry_rules_exact (db : UniDb) (g : LGR) (hwf : WF g.rep) (s : Bool)
    (es : List SymEntry) (h : (checkSymmetry db g false).2 = .ok (s, es)) :
    s = true ↔ ∀ a b, Maps g a b → In g b.cp ∧ (∃ w, Maps g b.cp w ∧ w.cp = a) ∧
      (∀ r, b.whenR = some r → r ≠ "" → ∃ w, Maps g b.cp w ∧ w.cp = a ∧ w.whenR = some r) ∧
      (∀ r, b.notWhenR = some r → r ≠ "" → ∃ w, Maps g b.cp w ∧ w.cp = a ∧ w.notWhenR = some r) := by
  obtain ⟨acc, h1, rfl, -, -⟩ := checkSymmetry_form h
  rw [(symmetry_adds hwf h1).2.1]
  have hR : ∀ k, Reported false k := fun k => .inl rfl
  constructor
  · intro hs a b hm
    have hI : In g b.cp := by
      by_contra hI
      exact hs a b _ hm (.outside hI) (hR _)
    have hrev : ∃ w, Maps g b.cp w ∧ w.cp = a := by
      by_contra hw
      exact hs a b _ hm (.missing hI fun w h3 h4 => hw ⟨w, h3, h4⟩) (hR _)
    have hwh : ¬ Lacks g a b Variant.whenR := fun hl => hs a b _ hm (.noWhen hI hrev hl) (hR _)
    have hnw : ¬ Lacks g a b Variant.notWhenR := fun hl =>
      hs a b _ hm (.noNotWhen hI hrev hwh hl) (hR _)
    refine ⟨hI, hrev, fun r hr hne => ?_, fun r hr hne => ?_⟩
    · by_contra hc
      exact hwh ⟨⟨r, hr, hne⟩, fun w h2 h3 h4 => hc ⟨w, h2, h3, h4.trans hr⟩⟩
    · by_contra hc
      exact hnw ⟨⟨r, hr, hne⟩, fun w h2 h3 h4 => hc ⟨w, h2, h3, h4.trans hr⟩⟩
  · intro hs a b k hm hk _
    obtain ⟨h1, ⟨w, h2, h3⟩, h4, h5⟩ := hs a b hm
    cases hk with
    | outside h => exact h h1
    | missing _ h => exact h w h2 h3
    | noWhen _ _ h =>
      obtain ⟨⟨r, h6, h7⟩, h8⟩ := h
      obtain ⟨w, h9, h10, h11⟩ := h4 r h6 h7
      exact h8 w h9 h10 (h11.trans h6.symm)
    | noNotWhen _ _ _ h =>
      obtain ⟨⟨r, h6, h7⟩, h8⟩ := h
      obtain ⟨w, h9, h10, h11⟩ := h5 r h6 h7
      exact h8 w h9 h10 (h11.trans h6.symm)

/-- **C26** The report has an entry for exactly the faulty mappings, each saying what is wrong. -/
theorem check_symmetry_report (db : UniDb) (g : LGR) (hwf : WF g.rep) (ign : Bool) (s : Bool)
    (es : List SymEntry) (h : (checkSymmetry db g ign).2 = .ok (s, es)) (e : SymEntry) :
    e ∈ es ↔ Maps g e.char e.variant ∧ Wrong g e.char e.variant e.kind ∧ Reported ign e.kind := by
  obtain ⟨acc, h1, -, rfl, -⟩ := checkSymmetry_form h
  exact (symmetry_adds hwf h1).1 e

end Lgr.Props.C26

namespace Lgr.Props.C27
open Lgr LGR Repertoire Validate C50 C26

/-- The mapping of `b` to `c` calls for one of `a` to `c`, which is not there. -/
def Gap (g : LGR) (a : Seq) (b c : Variant) : Prop :=
  Maps g a b ∧ Maps g b.cp c ∧ c.cp ≠ a ∧ ∀ d, Maps g a d → d.cp ≠ c.cp

theorem transInner_adds {g : LGR} {a : CharObj} (hl : g.rep.lookup a.cp = some a)
    (l : List Variant) (acc : Acc TransEntry) :
    Adds acc (l.foldl (transInner a) acc)
      (fun e => e.char = a.cp ∧ e.variant ∈ l ∧ ∀ d, Maps g a.cp d → d.cp ≠ e.variant.cp)
      (∀ c ∈ l, ∃ d, Maps g a.cp d ∧ d.cp = c.cp)
      (fun n => n = .error "basic_transitivity" ∧ ∃ c ∈ l, ∀ d, Maps g a.cp d → d.cp ≠ c.cp) := by
  have hm : ∀ w, Maps g a.cp w ↔ w ∈ a.getVariants := by
    intro w; unfold Maps; rw [hl]; simp
  induction l generalizing acc with
  | nil => exact (adds_none acc).congr (by simp) (by simp) (by simp)
  | cons c l ih =>
    simp only [List.foldl_cons]
    have h2 := ih (transInner a acc c)
    unfold transInner at h2 ⊢
    by_cases hc : c.cp ∉ a.getVariants.map Variant.cp
    · rw [if_pos hc] at h2 ⊢
      have hc' : ∀ d, Maps g a.cp d → d.cp ≠ c.cp := fun d hd he =>
        hc (List.mem_map.2 ⟨d, (hm d).1 hd, he⟩)
      have h1 := adds_fail acc ⟨a.cp, c⟩ "basic_transitivity"
      refine ⟨fun e => ?_, ?_, fun n => ?_⟩
      · rw [h2.entries, h1.entries, or_assoc]
        refine or_congr Iff.rfl ?_
        obtain ⟨x, y⟩ := e
        simp only [TransEntry.mk.injEq, List.mem_cons]
        constructor
        · rintro (⟨rfl, rfl⟩ | ⟨h3, h4, h5⟩)
          · exact ⟨rfl, .inl rfl, hc'⟩
          · exact ⟨h3, .inr h4, h5⟩
        · rintro ⟨rfl, rfl | h4, h5⟩
          · exact .inl ⟨rfl, rfl⟩
          · exact .inr ⟨rfl, h4, h5⟩
      · rw [h2.success, h1.success]
        simp only [and_false, false_and, List.mem_cons, forall_eq_or_imp, false_iff, not_and]
        rintro - ⟨d, h3, h4⟩
        exact absurd h4 (hc' d h3)
      · rw [h2.notes, h1.notes, or_assoc]
        refine or_congr Iff.rfl ?_
        simp only [List.mem_cons, exists_eq_or_imp]
        constructor
        · rintro (rfl | ⟨rfl, h3⟩)
          · exact ⟨rfl, .inl hc'⟩
          · exact ⟨rfl, .inr h3⟩
        · rintro ⟨rfl, _⟩
          exact .inl rfl
    · rw [if_neg hc] at h2 ⊢
      have hc' : ∃ d, Maps g a.cp d ∧ d.cp = c.cp := by
        obtain ⟨d, h3, h4⟩ := List.mem_map.1 (not_not.1 hc)
        exact ⟨d, (hm d).2 h3, h4⟩
      have hn : ¬ ∀ d, Maps g a.cp d → d.cp ≠ c.cp := fun h => by
        obtain ⟨d, h3, h4⟩ := hc'; exact h d h3 h4
      refine h2.congr ?_ ?_ ?_
      · intro e
        simp only [List.mem_cons]
        constructor
        · rintro ⟨h3, h4, h5⟩; exact ⟨h3, .inr h4, h5⟩
        · rintro ⟨h3, h4 | h4, h5⟩
          · rw [h4] at h5; exact absurd h5 hn
          · exact ⟨h3, h4, h5⟩
      · simp [hc']
      · intro n; simp only [List.mem_cons, exists_eq_or_imp]; simp [hn]

theorem getVariants_notIn {db : UniDb} {g : LGR} {s : Seq} (hs : s ≠ []) {x : Seq}
    (h : g.getVariants db (.seq s) = .error (.notInLGR x)) : ¬ In g s := by
  rintro ⟨c, hc⟩
  unfold LGR.getVariants at h
  split at h
  · rename_i e he
    simp only [Except.error.injEq] at h
    subst h
    cases s with
    | nil => exact hs rfl
    | cons i t =>
      unfold checkConvert at he
      simp only [convCp] at he
      split at he
      · simp at he
      · split at he
        · split at he <;> simp at he
        · simp at he
  · rename_i t ht
    obtain ⟨hd, _⟩ := checkConvert_ok.1 ht
    cases hd
    simp [Repertoire.getVariants, getChar_ok.2 hc] at h

theorem getVariants_in {db : UniDb} {g : LGR} {s : Seq} (hs : s ≠ []) (hi : IdnaOk db g s)
    (h : ¬ In g s) : g.getVariants db (.seq s) = .error (.notInLGR s) := by
  unfold LGR.getVariants
  rw [checkConvert_ok.2 ⟨.seq s hs, hi⟩]
  simp only [Repertoire.getVariants]
  have : g.rep.lookup s = none := by
    cases hl : g.rep.lookup s with
    | none => rfl
    | some c => exact absurd ⟨c, hl⟩ h
  cases hg : g.rep.getChar s with
  | ok c => rw [getChar_ok.1 hg] at this; cases this
  | error e => rw [((getChar_error hs).1 hg).2]

/-- What one step of the check adds. -/
abbrev TransAdds (g : LGR) (a : Seq) (b : Variant) (acc acc' : Acc TransEntry) : Prop :=
  Adds acc acc'
    (fun e => e.char = a ∧ Gap g a b e.variant)
    (In g b.cp ∧ ∀ c, ¬ Gap g a b c)
    (fun n => n = .error "basic_transitivity" ∧ ∃ c, Gap g a b c)

theorem transBody_adds {db : UniDb} {g : LGR} {a : CharObj} (hl : g.rep.lookup a.cp = some a)
    {b : Variant} (hb : b.cp ≠ []) (hmem : b ∈ a.getVariants) {acc acc' : Acc TransEntry}
    (he : transBody db g a acc b = (acc', .ok ())) : TransAdds g a.cp b acc acc' := by
  have hab : Maps g a.cp b := ⟨a, hl, hmem⟩
  unfold transBody at he
  split at he
  · rename_i x hx
    simp only [Prod.mk.injEq, and_true] at he
    subst he
    have hI := getVariants_notIn hb hx
    have hG : ∀ c, ¬ Gap g a.cp b c := fun c h => by
      obtain ⟨d, hd, _⟩ := h.2.1; exact hI ⟨d, hd⟩
    refine ⟨fun e => by simp [hG], by simp [hI], fun n => by simp [hG]⟩
  · simp at he
  · rename_i vs hvs
    obtain ⟨hi, c, hlc, rfl⟩ := (getVariants_ok hb).1 hvs
    simp only [Prod.mk.injEq, and_true] at he
    subst he
    have hm : ∀ w, Maps g b.cp w ↔ w ∈ c.getVariants := by
      intro w; unfold Maps; rw [hlc]; simp
    have hgap : ∀ w, (w ∈ c.getVariants.filter (fun v => decide (v.cp ≠ a.cp)) ∧
        ∀ d, Maps g a.cp d → d.cp ≠ w.cp) ↔ Gap g a.cp b w := by
      intro w
      unfold Gap
      rw [hm]
      simp only [List.mem_filter, decide_eq_true_eq]
      tauto
    refine (transInner_adds hl _ acc).congr ?_ ?_ ?_
    · intro e
      rw [hgap]
    · constructor
      · intro h
        refine ⟨⟨c, hlc⟩, fun w hw => ?_⟩
        obtain ⟨h1, h2⟩ := (hgap w).2 hw
        obtain ⟨d, h3, h4⟩ := h w h1
        exact h2 d h3 h4
      · rintro ⟨-, h⟩ w hw
        by_contra hc
        exact h w ((hgap w).1 ⟨hw, fun d h1 h2 => hc ⟨d, h1, h2⟩⟩)
    · intro n
      simp only [hgap]

theorem transBody_ok {db : UniDb} {g : LGR} {a : CharObj} {b : Variant} (hb : b.cp ≠ [])
    (acc : Acc TransEntry) :
    (transBody db g a acc b).2 = .ok () ↔ IdnaOk db g b.cp := by
  unfold transBody
  constructor
  · intro h
    split at h
    · rename_i x hx
      unfold LGR.getVariants at hx
      split at hx
      · rename_i e he
        simp only [Except.error.injEq] at hx
        subst hx
        exfalso
        cases hs : b.cp with
        | nil => exact hb hs
        | cons i t =>
          rw [hs] at he
          unfold checkConvert at he
          simp only [convCp] at he
          split at he
          · simp at he
          · split at he
            · split at he <;> simp at he
            · simp at he
      · rename_i t ht
        obtain ⟨hd, hi⟩ := checkConvert_ok.1 ht
        cases hd
        exact hi
    · simp at h
    · rename_i vs hvs
      exact ((getVariants_ok hb).1 hvs).1
  · intro hi
    by_cases hI : In g b.cp
    · obtain ⟨vs, hvs⟩ := (getVariants_ok' hb).2 ⟨hi, hI⟩
      rw [hvs]
    · rw [getVariants_in hb hi hI]

theorem transitivity_adds {db : UniDb} {g : LGR} (hwf : WF g.rep) {acc' : Acc TransEntry}
    (he : forEach (transChar db g) {} g.rep.iter = (acc', .ok ())) :
    (∀ e, e ∈ acc'.entries ↔ ∃ b, Gap g e.char b e.variant) ∧
    (acc'.success = true ↔ ∀ a b, Maps g a b → In g b.cp ∧ ∀ c, ¬ Gap g a b c) ∧
    (∀ n, n ∈ acc'.notes ↔ n = .error "basic_transitivity" ∧ ∃ a b c, Gap g a b c) := by
  have step : ∀ acc, ∀ a ∈ g.rep.iter, ∀ acc', transChar db g acc a = (acc', .ok ()) →
      Adds acc acc'
        (fun e => a.isRange = false ∧ ∃ b ∈ a.getVariants, e.char = a.cp ∧ Gap g a.cp b e.variant)
        (a.isRange = false → ∀ b ∈ a.getVariants, In g b.cp ∧ ∀ c, ¬ Gap g a.cp b c)
        (fun n => a.isRange = false ∧ ∃ b ∈ a.getVariants, n = .error "basic_transitivity" ∧
          ∃ c, Gap g a.cp b c) := by
    intro acc a ha acc' h
    unfold transChar at h
    by_cases hr : a.isRange = true
    · rw [if_pos hr] at h
      simp only [Prod.mk.injEq, and_true] at h
      subst h
      exact (adds_none acc).congr (by simp [hr]) (by simp [hr]) (by simp [hr])
    · rw [if_neg hr] at h
      have hla := iter_mem hwf ha
      have hwa := (lookup_charWF hwf hla).varWF
      have := forEach_adds a.getVariants
        (fun acc b hb acc' h => transBody_adds hla (variant_ne hwa hb) hb h) h
      exact this.congr (by simp [hr]) (by simp [hr]) (by simp [hr])
  have := forEach_adds g.rep.iter step he
  refine ⟨fun e => ?_, ?_, fun n => ?_⟩
  · rw [this.entries]
    simp only [List.not_mem_nil, false_or]
    rw [visited hwf (fun a b => e.char = a ∧ Gap g a b e.variant)]
    constructor
    · rintro ⟨a, b, h1, rfl, h2⟩; exact ⟨b, h2⟩
    · rintro ⟨b, h2⟩; exact ⟨_, _, h2.1, rfl, h2⟩
  · rw [this.success]
    simp only [true_and]
    exact visited_all hwf (fun a b => In g b.cp ∧ ∀ c, ¬ Gap g a b c)
  · rw [this.notes]
    simp only [List.not_mem_nil, false_or]
    rw [visited hwf (fun a b => n = .error "basic_transitivity" ∧ ∃ c, Gap g a b c)]
    constructor
    · rintro ⟨a, b, h1, h2, c, h3⟩; exact ⟨h2, a, b, c, h3⟩
    · rintro ⟨h2, a, b, c, h3⟩; exact ⟨a, b, h3.1, h2, c, h3⟩

theorem checkTransitivity_form {db : UniDb} {g : LGR} {s : Bool} {es : List TransEntry}
    (h : (checkTransitivity db g).2 = .ok (s, es)) :
    ∃ acc, forEach (transChar db g) {} g.rep.iter = (acc, .ok ()) ∧ acc.success = s ∧
      acc.entries = es ∧ (checkTransitivity db g).1 = acc.notes ++ [.tested "basic_transitivity"] := by
  unfold checkTransitivity at *
  split at h
  · simp at h
  · rename_i acc h1
    simp only [Except.ok.injEq, Prod.mk.injEq] at h
    rw [h1]
    exact ⟨acc, rfl, h.1, h.2, rfl⟩

/-- **C27** The check raises nothing exactly when every variant is an IDNA-valid sequence. -/
theorem check_transitivity_returns_iff (db : UniDb) (g : LGR) (hwf : WF g.rep) :
    (∃ r, (checkTransitivity db g).2 = .ok r) ↔ ∀ a b, Maps g a b → IdnaOk db g b.cp := by
  have : (forEach (transChar db g) {} g.rep.iter).2 = .ok () ↔
      ∀ a ∈ g.rep.iter, a.isRange = false → ∀ b ∈ a.getVariants, IdnaOk db g b.cp := by
    refine forEach_ok_iff _ (fun acc a ha => ?_) _
    unfold transChar
    by_cases hr : a.isRange = true
    · simp [hr]
    · rw [if_neg hr]
      have hwa := (lookup_charWF hwf (iter_mem hwf ha)).varWF
      rw [forEach_ok_iff a.getVariants (fun acc b hb => transBody_ok (variant_ne hwa hb) acc)]
      simp [hr]
  rw [← visited_all hwf (fun _ b => IdnaOk db g b.cp), ← this]
  unfold checkTransitivity
  split
  · rename_i h; simp [h]
  · rename_i h; simp [h]

/-- **C27** The check succeeds exactly when every variant of an entry is an entry, and every variant
of that one, other than the first entry itself, is a variant of the first entry. -/
theorem check_transitivity_exact (db : UniDb) (g : LGR) (hwf : WF g.rep) (s : Bool)
    (es : List TransEntry) (h : (checkTransitivity db g).2 = .ok (s, es)) :
    s = true ↔ ∀ a b, Maps g a b → In g b.cp ∧
      ∀ c, Maps g b.cp c → c.cp ≠ a → ∃ d, Maps g a d ∧ d.cp = c.cp := by
  obtain ⟨acc, h1, rfl, -, -⟩ := checkTransitivity_form h
  rw [(transitivity_adds hwf h1).2.1]
  refine forall₂_congr fun a b => forall_congr' fun hm => and_congr Iff.rfl (forall_congr' fun c => ?_)
  unfold Gap
  constructor
  · intro h2 h3 h4
    by_contra hd
    exact h2 ⟨hm, h3, h4, fun d h5 h6 => hd ⟨d, h5, h6⟩⟩
  · rintro h2 ⟨-, h3, h4, h5⟩
    obtain ⟨d, h6, h7⟩ := h2 h3 h4
    exact h5 d h6 h7

/-- **C27** The report lists exactly the missing mappings: `char` should have `variant`. -/
theorem check_transitivity_report (db : UniDb) (g : LGR) (hwf : WF g.rep) (s : Bool)
    (es : List TransEntry) (h : (checkTransitivity db g).2 = .ok (s, es)) (e : TransEntry) :
    e ∈ es ↔ ∃ b, Maps g e.char b ∧ Maps g b.cp e.variant ∧ e.variant.cp ≠ e.char ∧
      ∀ d, Maps g e.char d → d.cp ≠ e.variant.cp := by
  obtain ⟨acc, h1, -, rfl, -⟩ := checkTransitivity_form h
  exact (transitivity_adds hwf h1).1 e

/-! Non-vacuity: an LGR failing both checks in several ways, and one passing. -/
def ctx : LGR.Ctx := { db := none, valid := fun _ => true, pyInt := fun _ => none }

def bad : List (LGR.Ctx × LGR.Op) :=
  [(ctx, .addCp (.int 1) {}), (ctx, .addCp (.int 2) {}), (ctx, .addCp (.int 3) {}),
   (ctx, .addVariant (.int 1) (.int 2) none { whenR := some "w" }),
   (ctx, .addVariant (.int 2) (.int 1) none {}),
   (ctx, .addVariant (.int 2) (.int 3) none {}), (ctx, .addVariant (.int 3) (.int 9) none {})]

def good : List (LGR.Ctx × LGR.Op) :=
  [(ctx, .addCp (.int 1) {}), (ctx, .addCp (.int 2) {}),
   (ctx, .addVariant (.int 1) (.int 2) none { whenR := some "w" }),
   (ctx, .addVariant (.int 2) (.int 1) none { whenR := some "w" })]

example : WF (LGR.run {} bad).rep ∧ WF (LGR.run {} good).rep := ⟨(run_wf bad).1, (run_wf good).1⟩
example : (checkSymmetry none (LGR.run {} bad) true).2 = .ok (false,
    [⟨[2], { cp := [3] }, .missingSymmetric⟩, ⟨[3], { cp := [9] }, .notInRepertoire⟩]) := by rfl
example : (checkSymmetry none (LGR.run {} bad) false).2 = .ok (false,
    [⟨[1], { cp := [2], whenR := some "w" }, .missingRule "when" (some "w")⟩,
     ⟨[2], { cp := [3] }, .missingSymmetric⟩, ⟨[3], { cp := [9] }, .notInRepertoire⟩]) := by rfl
example : (checkTransitivity none (LGR.run {} bad)).2 = .ok (false,
    [⟨[1], { cp := [3] }⟩, ⟨[2], { cp := [9] }⟩]) := by rfl
example : (checkSymmetry none (LGR.run {} good) false).2 = .ok (true, []) := by rfl
example : (checkTransitivity none (LGR.run {} good)).2 = .ok (true, []) := by rfl

end Lgr.Props.C27

namespace Lgr.Props.C52
open Lgr LGR Repertoire Validate C50 C26 C27

/-- The conformance results after the notifications of a check. -/
def recorded (r : Rfc7940.Results) (ns : List Note) : Rfc7940.Results := ns.foldl Note.apply r

theorem recorded_get (r : Rfc7940.Results) (ns : List Note) (t : String) :
    dget (recorded r ns) t =
      if .error t ∈ ns then some false
      else if .tested t ∈ ns then some ((dget r t).getD true)
      else dget r t := by
  induction ns generalizing r with
  | nil => simp [recorded]
  | cons n ns ih =>
    have := ih (n.apply r)
    simp only [recorded, List.foldl_cons] at this ⊢
    rw [this]
    cases n with
    | error l =>
      simp only [Note.apply, C12.addTestResult_get, List.mem_cons, Note.error.injEq, reduceCtorEq,
        false_or]
      by_cases h1 : Note.error t ∈ ns
      · simp [h1]
      · by_cases h2 : l = t
        · subst h2; simp
        · simp [h1, h2, Ne.symm h2]
    | tested l =>
      simp only [Note.apply, C12.addTestResult_get, List.mem_cons, Note.tested.injEq, reduceCtorEq,
        false_or]
      by_cases h1 : Note.error t ∈ ns
      · simp [h1]
      · by_cases h2 : l = t
        · subst h2; simp [h1]
        · simp [h1, h2, Ne.symm h2]

theorem recorded_test {ns : List Note} {t : String} {P : Prop} (he : .error t ∈ ns ↔ P)
    (ht : .tested t ∈ ns) (r : Rfc7940.Results) :
    (dget (recorded r ns) t = some false ↔ dget r t = some false ∨ P) ∧
    (dget (recorded r ns) t = some false ∨ dget (recorded r ns) t = some true) := by
  rw [recorded_get, if_pos ht, ← he]
  by_cases hc : Note.error t ∈ ns
  · simp [hc]
  · rw [if_neg hc]
    cases dget r t with
    | none => simp [hc]
    | some b => cases b <;> simp [hc]

/-- **C52** After a symmetry check the test `basic_symmetry` stands as failed exactly when it did
before or some variant is not an entry or lacks the reverse mapping; otherwise it stands as passed. -/
theorem basic_symmetry_recorded (db : UniDb) (g : LGR) (hwf : WF g.rep) (ign : Bool) (s : Bool)
    (es : List SymEntry) (h : (checkSymmetry db g ign).2 = .ok (s, es)) (r : Rfc7940.Results) :
    let after := dget (recorded r (checkSymmetry db g ign).1) "basic_symmetry"
    (after = some false ↔ dget r "basic_symmetry" = some false ∨
      ∃ a b, Maps g a b ∧ ¬ (In g b.cp ∧ ∃ w, Maps g b.cp w ∧ w.cp = a)) ∧
    (after = some false ∨ after = some true) := by
  obtain ⟨acc, h1, -, -, hn⟩ := checkSymmetry_form h
  have hnotes := (symmetry_adds hwf h1).2.2
  have herr : Note.error "basic_symmetry" ∈ (checkSymmetry db g ign).1 ↔
      ∃ a b, Maps g a b ∧ ¬ (In g b.cp ∧ ∃ w, Maps g b.cp w ∧ w.cp = a) := by
    rw [hn, List.mem_append, hnotes]
    simp only [List.mem_cons, reduceCtorEq, List.not_mem_nil, or_false]
    constructor
    · rintro ⟨a, b, k, h2, h3, -, h4⟩
      refine ⟨a, b, h2, ?_⟩
      rintro ⟨h5, w, h6, h7⟩
      cases h3 with
      | outside h => exact h h5
      | missing _ h => exact h w h6 h7
      | noWhen => simp [testOf] at h4
      | noNotWhen => simp [testOf] at h4
    · rintro ⟨a, b, h2, h3⟩
      by_cases hI : In g b.cp
      · exact ⟨a, b, _, h2, .missing hI fun w h4 h5 => h3 ⟨hI, w, h4, h5⟩, by simp [Reported], rfl⟩
      · exact ⟨a, b, _, h2, .outside hI, by simp [Reported], rfl⟩
  exact recorded_test herr (by rw [hn]; simp) r

/-- **C52** The test `strict_symmetry` stands as failed exactly when it did before or a reverse
mapping exists but none has the context rule wanted; a missing reverse mapping does not count. -/
theorem strict_symmetry_recorded (db : UniDb) (g : LGR) (hwf : WF g.rep) (s : Bool)
    (es : List SymEntry) (h : (checkSymmetry db g false).2 = .ok (s, es)) (r : Rfc7940.Results) :
    let after := dget (recorded r (checkSymmetry db g false).1) "strict_symmetry"
    (after = some false ↔ dget r "strict_symmetry" = some false ∨
      ∃ a b, Maps g a b ∧ In g b.cp ∧ (∃ w, Maps g b.cp w ∧ w.cp = a) ∧
        (Lacks g a b Variant.whenR ∨ Lacks g a b Variant.notWhenR)) ∧
    (after = some false ∨ after = some true) := by
  obtain ⟨acc, h1, -, -, hn⟩ := checkSymmetry_form h
  have hnotes := (symmetry_adds hwf h1).2.2
  have herr : Note.error "strict_symmetry" ∈ (checkSymmetry db g false).1 ↔
      ∃ a b, Maps g a b ∧ In g b.cp ∧ (∃ w, Maps g b.cp w ∧ w.cp = a) ∧
        (Lacks g a b Variant.whenR ∨ Lacks g a b Variant.notWhenR) := by
    rw [hn, List.mem_append, hnotes]
    simp only [List.mem_cons, reduceCtorEq, List.not_mem_nil, or_false]
    constructor
    · rintro ⟨a, b, k, h2, h3, -, h4⟩
      cases h3 with
      | outside => simp [testOf] at h4
      | missing => simp [testOf] at h4
      | noWhen h5 h6 h7 => exact ⟨a, b, h2, h5, h6, .inl h7⟩
      | noNotWhen h5 h6 _ h7 => exact ⟨a, b, h2, h5, h6, .inr h7⟩
    · rintro ⟨a, b, h2, h3, h4, h5⟩
      by_cases hw : Lacks g a b Variant.whenR
      · exact ⟨a, b, _, h2, .noWhen h3 h4 hw, .inl rfl, rfl⟩
      · exact ⟨a, b, _, h2, .noNotWhen h3 h4 hw (h5.resolve_left hw), .inl rfl, rfl⟩
  exact recorded_test herr (by rw [hn]; simp) r

/-- **C52**, partial. The test `basic_transitivity` stands as failed exactly when it did before or a
mapping is missing. Missing: that it stands as failed when the check fails; see
`transitivity_recorded_wrongly`. -/
theorem transitivity_recorded_partial (db : UniDb) (g : LGR) (hwf : WF g.rep) (s : Bool)
    (es : List TransEntry) (h : (checkTransitivity db g).2 = .ok (s, es)) (r : Rfc7940.Results) :
    let after := dget (recorded r (checkTransitivity db g).1) "basic_transitivity"
    (after = some false ↔ dget r "basic_transitivity" = some false ∨ ∃ a b c, Gap g a b c) ∧
    (after = some false ∨ after = some true) := by
  obtain ⟨acc, h1, -, -, hn⟩ := checkTransitivity_form h
  have hnotes := (transitivity_adds hwf h1).2.2
  have herr : Note.error "basic_transitivity" ∈ (checkTransitivity db g).1 ↔
      ∃ a b c, Gap g a b c := by
    rw [hn, List.mem_append, hnotes]
    simp
  exact recorded_test herr (by rw [hn]; simp) r

/-- **C52** is violated: with a variant outside the repertoire the transitivity check fails, yet the
test is recorded as passed. -/
theorem transitivity_recorded_wrongly : ∃ (ops : List (LGR.Ctx × LGR.Op)) (es : List TransEntry),
    (checkTransitivity none (LGR.run {} ops)).2 = .ok (false, es) ∧
    dget (recorded [] (checkTransitivity none (LGR.run {} ops)).1) "basic_transitivity" = some true :=
  ⟨[(ctx, .addCp (.int 1) {}), (ctx, .addVariant (.int 1) (.int 2) none {})], [], rfl, rfl⟩

/-! Non-vacuity. -/
example : dget (recorded [] (checkSymmetry none (LGR.run {} bad) false).1) "strict_symmetry" =
    some false := by rfl
example : dget (recorded [] (checkSymmetry none (LGR.run {} bad) true).1) "strict_symmetry" =
    some true := by rfl
example : dget (recorded [] (checkSymmetry none (LGR.run {} good) true).1) "basic_symmetry" =
    some true := by rfl

end Lgr.Props.C52

import Verif.Lgr
import Verif.Props.RepertoireRange
import Verif.Props.Collapse

/-!
# C02, C40, C50: editing code points and variants of an LGR
-/

namespace Lgr.Props.C02
open Lgr LGR

/-- **C02** A raising `add_cp` changes nothing. -/
theorem add_cp_atomic (db : UniDb) (g : LGR) (arg : CpArg) (o : Opts) (e : Err)
    (h : (g.addCp db arg o).2 = .error e) : (g.addCp db arg o).1 = g := by
  unfold addCp at h ⊢
  split at h
  · rfl
  · split at h
    · rfl
    · simp at h

/-- **C02** A raising `del_cp` changes nothing. -/
theorem del_cp_atomic (db : UniDb) (g : LGR) (arg : CpArg) (e : Err)
    (h : (g.delCp db arg).2 = .error e) : (g.delCp db arg).1 = g := by
  unfold delCp at h ⊢
  split at h
  · rfl
  · split at h
    · rfl
    · split at h
      · rfl
      · simp at h

/-- **C02** A raising `add_variant` changes nothing. -/
theorem add_variant_atomic (db : UniDb) (g : LGR) (arg var : CpArg) (t : Option String) (o : Opts)
    (e : Err) (h : (g.addVariant db arg var t o).2 = .error e) :
    (g.addVariant db arg var t o).1 = g := by
  unfold LGR.addVariant at h ⊢
  split at h
  · rfl
  · split at h
    · rfl
    · simp at h

/-- **C02** A raising `del_variant` changes nothing. -/
theorem del_variant_atomic (db : UniDb) (g : LGR) (arg var : CpArg) (w n : Option String)
    (e : Err) (h : (g.delVariant db arg var w n).2 = .error e) :
    (g.delVariant db arg var w n).1 = g := by
  unfold LGR.delVariant at h ⊢
  split at h
  · rfl
  · split at h
    · split at h
      · rfl
      · simp at h
    · split at h <;> rfl

/-! Non-vacuity: each call can raise on an LGR with content. -/
example : ((LGR.addCp none {} (.int 97) {}).1.addCp none (.int 97) {}).2 =
    .error (.charAlreadyExists [97]) := by rfl
example : ((LGR.addCp none {} (.int 97) {}).1.delCp none (.int 98)).2 =
    .error (.notInLGR [98]) := by rfl
example : ((LGR.addCp none {} (.int 97) {}).1.addVariant none (.int 97) (.seq [98]) none
    { ref := ["1"] }).2 = .error (.referenceNotDefined "1") := by rfl
example : ((LGR.addCp none {} (.int 97) {}).1.delVariant none (.int 97) (.int 98) none none).2 =
    .error .typeError := by rfl

end Lgr.Props.C02

namespace Lgr.Props.C50
open Lgr LGR Repertoire

/-- The code point sequence an argument stands for. -/
inductive Denotes : CpArg → Seq → Prop
  | int (n : Nat) : Denotes (.int n) [n]
  | seq (s : Seq) : s ≠ [] → Denotes (.seq s) s

/-- Every code point is IDNA-valid, or there is no way to tell, or invalid ones are let through. -/
def IdnaOk (db : UniDb) (g : LGR) (s : Seq) : Prop :=
  g.raiseInvalid = true → ∀ valid, db = some valid → ∀ x ∈ s, valid x = true

/-- Every code point is in the validating repertoire, or the caller overrides it. -/
def VRepOk (o : Opts) (s : Seq) : Prop :=
  ∀ check, o.vrep = some check → ∀ x ∈ s,
    check x = .ok true ∨ check x = .ok false ∧ (o.override = true ∨ o.force = true)

/-- The references are defined and distinct. -/
def RefsOk (g : LGR) (o : Opts) : Prop :=
  (∀ i ∈ o.ref, (dget g.refs.refs i).isSome = true) ∧ o.ref.Nodup

/-- The references that are defined, in the order given. -/
def knownRefs (g : LGR) (o : Opts) : List String := o.ref.filter (fun i => (dget g.refs.refs i).isSome)

theorem checkConvert_ok {db : UniDb} {g : LGR} {arg : CpArg} {s : Seq} :
    checkConvert db g.raiseInvalid arg = .ok s ↔ Denotes arg s ∧ IdnaOk db g s := by
  have conv : ∀ s, convCp arg = .ok s ↔ Denotes arg s := by
    intro s
    constructor
    · intro h
      cases arg with
      | int n => simp [convCp] at h; subst h; exact .int n
      | seq t =>
        cases t with
        | nil => simp [convCp] at h
        | cons x t => simp [convCp] at h; subst h; exact .seq _ (by simp)
      | other => simp [convCp] at h
    · intro h
      cases h with
      | int n => rfl
      | seq s h =>
        cases s with
        | nil => exact absurd rfl h
        | cons x s => rfl
  unfold checkConvert
  split
  · rename_i e he
    constructor
    · intro h; simp at h
    · rintro ⟨h, -⟩
      rw [← conv, he] at h; simp at h
  · rename_i t ht
    have hd := (conv t).1 ht
    have huniq : ∀ {s}, Denotes arg s → s = t := by
      intro s hs
      rw [← conv, ht] at hs
      simpa using hs.symm
    cases db with
    | none =>
      simp only [Except.ok.injEq]
      constructor
      · rintro rfl; exact ⟨hd, by simp [IdnaOk]⟩
      · rintro ⟨h, -⟩; exact (huniq h).symm
    | some valid =>
      simp only
      cases hf : t.find? (fun x => !valid x) with
      | none =>
        rw [List.find?_eq_none] at hf
        simp only [Except.ok.injEq]
        constructor
        · rintro rfl
          refine ⟨hd, ?_⟩
          intro _ v hv x hx
          simp only [Option.some.injEq] at hv; subst hv
          simpa using hf x hx
        · rintro ⟨h, -⟩; exact (huniq h).symm
      | some x =>
        have hx := List.find?_some hf
        have hm := List.mem_of_find?_eq_some hf
        by_cases hr : g.raiseInvalid = true
        · simp only [hr, if_true, reduceCtorEq, false_iff, not_and]
          intro h hok
          have := hok hr valid rfl x (by rw [huniq h]; exact hm)
          simp [this] at hx
        · simp only [hr, Bool.false_eq_true, if_false, Except.ok.injEq]
          constructor
          · rintro rfl; exact ⟨hd, fun h => absurd h hr⟩
          · rintro ⟨h, -⟩; exact (huniq h).symm

theorem checkVRep_ok {check : Nat → Except Err Bool} {lenient : Bool} {whole s : Seq} :
    checkVRep check lenient whole s = .ok () ↔
      ∀ x ∈ s, check x = .ok true ∨ check x = .ok false ∧ lenient = true := by
  induction s with
  | nil => simp [checkVRep]
  | cons x s ih =>
    simp only [checkVRep, List.forall_mem_cons]
    cases hc : check x with
    | error e => simp
    | ok b =>
      cases b with
      | true => simp [ih]
      | false =>
        cases lenient with
        | true => simpa using ih
        | false => simp

theorem checkVRepOpt_ok {o : Opts} {whole s : Seq} :
    checkVRepOpt o whole s = .ok () ↔ VRepOk o s := by
  unfold checkVRepOpt VRepOk
  cases o.vrep with
  | none => simp
  | some check => simp [checkVRep_ok]

theorem gatherRefs_ok {m : RefManager} {force : Bool} {is l : List String} :
    gatherRefs m force is = .ok l ↔
      l = is.filter (fun i => (dget m.refs i).isSome) ∧
        (force = false → ∀ i ∈ is, (dget m.refs i).isSome = true) := by
  induction is generalizing l with
  | nil => simp only [gatherRefs, Except.ok.injEq, List.filter_nil]; constructor
           · rintro rfl; exact ⟨rfl, by simp⟩
           · rintro ⟨h, -⟩; exact h.symm
  | cons i is ih =>
    unfold gatherRefs
    by_cases hi : (dget m.refs i).isSome = true
    · simp only [hi, if_true, List.filter_cons_of_pos, List.forall_mem_cons, true_and]
      cases hg : gatherRefs m force is with
      | error e =>
        simp only [reduceCtorEq, false_iff, not_and]
        intro _ h
        have := (ih (l := is.filter (fun i => (dget m.refs i).isSome))).2 ⟨rfl, h⟩
        rw [hg] at this; simp at this
      | ok l' =>
        obtain ⟨h1, h2⟩ := ih.1 hg
        subst h1
        simp only [Except.ok.injEq]
        constructor
        · rintro rfl; exact ⟨rfl, h2⟩
        · rintro ⟨h3, -⟩; exact h3.symm
    · rw [if_neg hi, List.filter_cons_of_neg (by simpa using hi)]
      cases force with
      | true =>
        rw [if_pos rfl, ih]
        simp
      | false => simp [hi]

theorem takeRefs_ok {g : LGR} {o : Opts} {whole : Seq} {l : List String} :
    takeRefs g.refs o whole = .ok l ↔ l = knownRefs g o ∧ (o.force = false → RefsOk g o) := by
  unfold takeRefs
  cases hg : gatherRefs g.refs o.force o.ref with
  | error e =>
    simp only [reduceCtorEq, false_iff, not_and]
    intro _ h
    cases hf : o.force with
    | true =>
      have := (gatherRefs_ok (m := g.refs) (force := o.force) (is := o.ref)).2 ⟨rfl, by simp [hf]⟩
      rw [hg] at this; simp at this
    | false =>
      have := (gatherRefs_ok (m := g.refs) (force := o.force) (is := o.ref)).2
        ⟨rfl, fun _ => (h hf).1⟩
      rw [hg] at this; simp at this
  | ok l' =>
    obtain ⟨h1, h2⟩ := gatherRefs_ok.1 hg
    have h1 : l' = knownRefs g o := h1
    simp only
    have hall : o.force = false → knownRefs g o = o.ref := by
      intro hf
      exact List.filter_eq_self.2 (h2 hf)
    cases hf : o.force with
    | true => simp [h1, eq_comm]
    | false =>
      have h3 := h2 hf
      simp only [Bool.false_eq_true, not_false_eq_true, and_true, true_implies, RefsOk]
      rw [h1, hall hf]
      by_cases hn : o.ref.Nodup
      · simp only [hn, not_true_eq_false, if_false, Except.ok.injEq, and_true]
        constructor
        · rintro rfl; exact ⟨rfl, h3⟩
        · rintro ⟨h, -⟩; exact h.symm
      · simp [hn]

/-- Extra conditions unless forced. -/
def Strict (g : LGR) (o : Opts) : Prop :=
  (o.whenR = none ∨ o.notWhenR = none) ∧ RefsOk g o

def StrictTags (s : Seq) (o : Opts) : Prop := o.tag.Nodup ∧ (o.tag = [] ∨ s.length = 1)

theorem denotes_ne {arg : CpArg} {s : Seq} (h : Denotes arg s) : s ≠ [] := by
  cases h with
  | int n => simp
  | seq s h => exact h

theorem not_both {o : Opts} : (¬ (¬ o.force = true ∧ o.whenR.isSome = true ∧ o.notWhenR.isSome = true)) ↔
    (o.force = false → o.whenR = none ∨ o.notWhenR = none) := by
  cases o.force <;> cases o.whenR <;> cases o.notWhenR <;> simp

theorem addCpChecks_ok {db : UniDb} {g : LGR} {arg : CpArg} {o : Opts} {s : Seq} {a : Attrs} :
    g.addCpChecks db arg o = .ok (s, a) ↔
      Denotes arg s ∧ IdnaOk db g s ∧ VRepOk o s ∧ a = mkAttrs o (knownRefs g o) ∧
        (o.force = false → Strict g o ∧ StrictTags s o) := by
  unfold addCpChecks
  constructor
  · intro hc
    split at hc
    · simp at hc
    rename_i t ht
    rw [checkConvert_ok] at ht
    split at hc
    · simp at hc
    rename_i hctx
    split at hc
    · simp at hc
    rename_i hv
    rw [checkVRepOpt_ok] at hv
    split at hc
    · simp at hc
    rename_i refs hrefs
    rw [takeRefs_ok] at hrefs
    split at hc
    · simp at hc
    rename_i hseq
    split at hc
    · simp at hc
    rename_i htag
    simp only [Except.ok.injEq, Prod.mk.injEq] at hc
    obtain ⟨rfl, rfl⟩ := hc
    refine ⟨ht.1, ht.2, hv, by rw [hrefs.1], ?_⟩
    intro hf
    refine ⟨⟨not_both.1 hctx hf, hrefs.2 hf⟩, ?_, ?_⟩
    · by_contra hn
      exact htag ⟨hn, by simp [hf]⟩
    · by_contra hn
      rw [not_or] at hn
      apply hseq
      refine ⟨?_, List.length_pos_iff.2 hn.1, by simp [hf]⟩
      have := List.length_pos_iff.2 (denotes_ne ht.1)
      omega
  · rintro ⟨hd, hi, hv, rfl, hf⟩
    rw [checkConvert_ok.2 ⟨hd, hi⟩]
    simp only
    rw [if_neg (not_both.2 fun h => (hf h).1.1), checkVRepOpt_ok.2 hv]
    simp only
    rw [takeRefs_ok.2 ⟨rfl, fun h => (hf h).1.2⟩]
    simp only
    rw [if_neg, if_neg]
    · rintro ⟨h1, h2⟩
      exact h1 (hf (by simpa using h2)).2.1
    · rintro ⟨h1, h2, h3⟩
      rcases (hf (by simpa using h3)).2.2 with h4 | h4
      · rw [h4] at h2; simp at h2
      · omega

theorem addChar_ok {r r' : Repertoire} {s : Seq} {a : Attrs} (h : r.addChar s a = .ok r') :
    s ≠ [] ∧ r.addCharObj { cp := s, attrs := a } = .ok r' := by
  unfold Repertoire.addChar at h
  by_cases hs : s = []
  · rw [if_pos hs] at h; simp at h
  · rw [if_neg hs] at h; exact ⟨hs, h⟩

theorem addChar_ok_iff {r : Repertoire} {s : Seq} {a : Attrs} (hs : s ≠ []) :
    (∃ r', r.addChar s a = .ok r') ↔ r.lookup s = none := by
  rw [← addCharObj_ok_iff (c := { cp := s, attrs := a }) hs]
  simp [Repertoire.addChar, hs]

/-- **C50** `add_cp` succeeds exactly when: the argument stands for a sequence that is not in the
LGR, it is IDNA-valid (unless that check is off) and in the validating repertoire (unless
overridden); and unless forced, it has not both context rules, its references are defined and
distinct, its tags are distinct, and it has tags only if it is a single code point. -/
theorem add_cp_ok_iff (db : UniDb) (g : LGR) (arg : CpArg) (o : Opts) :
    (g.addCp db arg o).2 = .ok () ↔
      ∃ s, Denotes arg s ∧ IdnaOk db g s ∧ VRepOk o s ∧ g.rep.lookup s = none ∧
        (o.force = false → Strict g o ∧ StrictTags s o) := by
  constructor
  · intro h
    unfold addCp at h
    split at h
    · simp at h
    rename_i s a hc
    split at h
    · simp at h
    rename_i r hr
    obtain ⟨h1, h2, h3, -, h5⟩ := addCpChecks_ok.1 hc
    exact ⟨s, h1, h2, h3, (addChar_ok_iff (denotes_ne h1)).1 ⟨r, hr⟩, h5⟩
  · rintro ⟨s, hd, hi, hv, hl, hf⟩
    obtain ⟨r, hr⟩ := (addChar_ok_iff (a := mkAttrs o (knownRefs g o)) (denotes_ne hd)).2 hl
    unfold addCp
    rw [addCpChecks_ok.2 ⟨hd, hi, hv, rfl, hf⟩]
    simp only
    rw [hr]

/-- The code points a tag class contains. -/
def tagSet (g : LGR) (t : String) : List Nat := (dget g.tagCls t).getD []

theorem mem_addAll {l : List Nat} {s : Seq} {x : Nat} : x ∈ addAll l s ↔ x ∈ l ∨ x ∈ s := by
  unfold addAll
  induction s generalizing l with
  | nil => simp
  | cons y s ih =>
    rw [List.foldl_cons, ih]
    by_cases hy : y ∈ l
    · simp only [hy, if_true, List.mem_cons]
      constructor
      · rintro (h | h)
        · exact Or.inl h
        · exact Or.inr (Or.inr h)
      · rintro (h | rfl | h)
        · exact Or.inl h
        · exact Or.inl hy
        · exact Or.inr h
    · simp only [hy, if_false, List.mem_append, List.mem_cons, List.not_mem_nil, or_false, or_assoc]

theorem mem_addToTags {cls : List (String × List Nat)} {s : Seq} {tags : List String} {t : String}
    {x : Nat} : x ∈ (dget (addToTags cls s tags) t).getD [] ↔
      x ∈ (dget cls t).getD [] ∨ (t ∈ tags ∧ x ∈ s) := by
  unfold addToTags
  induction tags generalizing cls with
  | nil => simp
  | cons u tags ih =>
    rw [List.foldl_cons, ih, dget_dset]
    by_cases hu : u = t
    · subst hu
      simp only [if_true, Option.getD_some, mem_addAll, List.mem_cons, true_or, true_and]
      tauto
    · have : ¬ t = u := fun h => hu h.symm
      simp only [hu, if_false, List.mem_cons, this, false_or]

theorem mem_delFromTags {cls : List (String × List Nat)} {s : Seq} {tags : List String} {t : String}
    {x : Nat} : x ∈ (dget (delFromTags cls s tags) t).getD [] ↔
      x ∈ (dget cls t).getD [] ∧ ¬ (t ∈ tags ∧ x ∈ s) := by
  unfold delFromTags
  induction tags generalizing cls with
  | nil => simp
  | cons u tags ih =>
    rw [List.foldl_cons, ih]
    cases hu : dget cls u with
    | none =>
      simp only
      by_cases h : u = t
      · subst h; simp [hu]
      · have : ¬ t = u := fun h' => h h'.symm
        simp only [List.mem_cons, this, false_or]
    | some l =>
      simp only [dget_dset]
      by_cases h : u = t
      · subst h
        simp only [if_true, Option.getD_some, List.mem_filter, decide_eq_true_eq, hu,
          List.mem_cons, true_or, true_and]
        tauto
      · have : ¬ t = u := fun h' => h h'.symm
        simp only [h, if_false, List.mem_cons, this, false_or]

/-- **C50** What a successful `add_cp` does: the sequence gets an entry with the given attributes
and the defined references, its code points join the classes of its tags, nothing else changes. -/
theorem add_cp_effect (db : UniDb) (g : LGR) (arg : CpArg) (o : Opts)
    (h : (g.addCp db arg o).2 = .ok ()) :
    ∃ s, Denotes arg s ∧ g.rep.lookup s = none ∧
      (∀ k, (g.addCp db arg o).1.rep.lookup k = if k = s then
        some { cp := s, attrs := { comment := o.comment, refs := knownRefs g o, tags := o.tag,
                                   whenR := o.whenR, notWhenR := o.notWhenR } }
        else g.rep.lookup k) ∧
      (g.addCp db arg o).1.rep.ranges = g.rep.ranges ∧
      (∀ t x, x ∈ tagSet (g.addCp db arg o).1 t ↔ x ∈ tagSet g t ∨ (t ∈ o.tag ∧ x ∈ s)) ∧
      (g.addCp db arg o).1.refs = g.refs ∧ (g.addCp db arg o).1.types = g.types ∧
      (g.addCp db arg o).1.raiseInvalid = g.raiseInvalid := by
  unfold addCp at h ⊢
  split at h
  · simp at h
  rename_i s a hc
  split at h
  · simp at h
  rename_i r hr
  simp only
  obtain ⟨h1, -, -, rfl, -⟩ := addCpChecks_ok.1 hc
  obtain ⟨hne, hr'⟩ := addChar_ok hr
  refine ⟨s, h1, (addChar_ok_iff hne).1 ⟨r, hr⟩, ?_, ?_, ?_, trivial, trivial, trivial⟩
  · intro k
    exact lookup_addCharObj hr' k
  · obtain ⟨i, t, -, h5, -⟩ := addCharObj_form hr'
    exact h5
  · intro t x
    exact mem_addToTags

/-- **C50** `del_cp` succeeds exactly when the sequence is IDNA-valid (unless that check is off) and
in the LGR; it removes its entry, and its code points from the classes of its tags. -/
theorem del_cp_effect (db : UniDb) (g : LGR) (hwf : WF g.rep) (arg : CpArg) :
    ((g.delCp db arg).2 = .ok () ↔
      ∃ s c, Denotes arg s ∧ IdnaOk db g s ∧ g.rep.lookup s = some c) ∧
    ∀ s c, Denotes arg s → g.rep.lookup s = some c → (g.delCp db arg).2 = .ok () →
      (∀ k, (g.delCp db arg).1.rep.lookup k = if k = s then none else g.rep.lookup k) ∧
      (g.delCp db arg).1.rep.ranges = g.rep.ranges ∧
      (∀ t x, x ∈ tagSet (g.delCp db arg).1 t ↔
        x ∈ tagSet g t ∧ ¬ (t ∈ c.attrs.tags ∧ x ∈ s)) ∧
      (g.delCp db arg).1.refs = g.refs ∧ (g.delCp db arg).1.types = g.types ∧
      (g.delCp db arg).1.raiseInvalid = g.raiseInvalid := by
  have huniq : ∀ {s t}, Denotes arg s → Denotes arg t → s = t := by
    intro s t h1 h2
    cases h1 <;> cases h2 <;> rfl
  unfold delCp
  cases hc : checkConvert db g.raiseInvalid arg with
  | error e =>
    simp only [reduceCtorEq, false_iff, not_exists, not_and]
    refine ⟨?_, by simp⟩
    intro s c h1 h2
    rw [checkConvert_ok.2 ⟨h1, h2⟩] at hc; simp at hc
  | ok s =>
    obtain ⟨h1, h2⟩ := checkConvert_ok.1 hc
    simp only
    cases hg : g.rep.getChar s with
    | error e =>
      simp only [reduceCtorEq, false_iff, not_exists, not_and]
      refine ⟨?_, by simp⟩
      intro t c h3 h4 h5
      rw [← huniq h1 h3, ← getChar_ok, hg] at h5; simp at h5
    | ok c =>
      have hl := getChar_ok.1 hg
      have hs := delCharObj_isSome.2 (by rw [hl]; rfl)
      obtain ⟨r, hr⟩ := Option.isSome_iff_exists.1 hs
      have hd : g.rep.delChar s = .ok r := by
        simp [Repertoire.delChar, denotes_ne h1, hr]
      simp only [hd]
      refine ⟨⟨fun _ => ⟨s, c, h1, h2, hl⟩, fun _ => trivial⟩, ?_⟩
      intro t d h3 h4 _
      obtain rfl := huniq h1 h3
      rw [hl] at h4; cases h4
      refine ⟨fun k => lookup_delCharObj hwf hr k, ?_, fun t x => mem_delFromTags, trivial, trivial,
        trivial⟩
      obtain ⟨i, t, -, h5, -⟩ := delCharObj_form hwf hr
      exact h5

theorem addVariantChecks_ok {db : UniDb} {g : LGR} {arg var : CpArg} {type : Option String} {o : Opts}
    {s : Seq} {v : Variant} :
    g.addVariantChecks db arg var type o = .ok (s, v) ↔
      Denotes arg s ∧ IdnaOk db g s ∧ Denotes var v.cp ∧ IdnaOk db g v.cp ∧ VRepOk o v.cp ∧
        v = ⟨v.cp, type, o.whenR, o.notWhenR, o.comment, knownRefs g o⟩ ∧
        (o.force = false → Strict g o) := by
  unfold addVariantChecks
  constructor
  · intro hc
    split at hc
    · simp at hc
    rename_i t ht
    rw [checkConvert_ok] at ht
    split at hc
    · simp at hc
    rename_i w hw
    rw [checkConvert_ok] at hw
    split at hc
    · simp at hc
    rename_i hctx
    split at hc
    · simp at hc
    rename_i hv
    rw [checkVRepOpt_ok] at hv
    split at hc
    · simp at hc
    rename_i refs hrefs
    rw [takeRefs_ok] at hrefs
    simp only [Except.ok.injEq, Prod.mk.injEq] at hc
    obtain ⟨rfl, rfl⟩ := hc
    exact ⟨ht.1, ht.2, hw.1, hw.2, hv, by rw [hrefs.1], fun hf => ⟨not_both.1 hctx hf, hrefs.2 hf⟩⟩
  · rintro ⟨hd, hi, hd', hi', hv, hve, hf⟩
    rw [checkConvert_ok.2 ⟨hd, hi⟩]
    simp only
    rw [checkConvert_ok.2 ⟨hd', hi'⟩]
    simp only
    rw [if_neg (not_both.2 fun h => (hf h).1), checkVRepOpt_ok.2 hv]
    simp only
    rw [takeRefs_ok.2 ⟨rfl, fun h => (hf h).2⟩]
    simp only
    rw [← hve]

/-- `c` has a variant with this code point and these context rules. -/
def HasVar (c : CharObj) (v : Seq) (w n : Option String) : Prop :=
  ∃ u ∈ c.getVariants, u.key = (v, w, n)

theorem char_addVariant_ok {c : CharObj} (hc : c.VarWF) {v : Variant} (hv : v.cp ≠ []) :
    (∃ c', c.addVariant v = .ok c') ↔ c.range = none ∧ ¬ HasVar c v.cp v.whenR v.notWhenR := by
  unfold CharObj.addVariant HasVar
  cases hr : c.range with
  | some x => simp
  | none =>
    simp only [Option.isSome_none, Bool.false_eq_true, if_false, hv, true_and]
    have key : (∃ u ∈ c.getVariants, u.key = (v.cp, v.whenR, v.notWhenR)) ↔
        ∃ vs, dget c.vars v.cp = some vs ∧ v.key ∈ vs.map Variant.key := by
      constructor
      · rintro ⟨u, hu, hk⟩
        have hcp : u.cp = v.cp := by
          have := congrArg Prod.fst hk; exact this
        obtain ⟨vs, h1, h2⟩ := (CharObj.mem_getVariants hc u).1 hu
        rw [hcp] at h1
        exact ⟨vs, h1, List.mem_map.2 ⟨u, h2, hk⟩⟩
      · rintro ⟨vs, h1, h2⟩
        obtain ⟨u, h3, h4⟩ := List.mem_map.1 h2
        refine ⟨u, (CharObj.mem_getVariants hc u).2 ⟨vs, ?_, h3⟩, h4⟩
        have hcp : u.cp = v.cp := by
          have := congrArg Prod.fst h4; exact this
        rw [hcp]; exact h1
    rw [key]
    cases hd : dget c.vars v.cp with
    | none => simp
    | some vs =>
      simp only [Option.some.injEq, exists_eq_left']
      by_cases hk : v.key ∈ vs.map Variant.key
      · rw [if_pos hk]; simp [hk]
      · rw [if_neg hk]; simp [hk]

/-- **C50** `add_variant` succeeds exactly when: both arguments stand for IDNA-valid sequences
(unless that check is off), the first is in the LGR and not part of a range, the variant is in the
validating repertoire (unless overridden) and new for these context rules; and unless forced, it has
not both context rules and its references are defined and distinct. -/
theorem add_variant_ok_iff (db : UniDb) (g : LGR) (hwf : WF g.rep) (arg var : CpArg)
    (type : Option String) (o : Opts) :
    (g.addVariant db arg var type o).2 = .ok () ↔
      ∃ s v c, Denotes arg s ∧ IdnaOk db g s ∧ Denotes var v ∧ IdnaOk db g v ∧ VRepOk o v ∧
        g.rep.lookup s = some c ∧ c.range = none ∧ ¬ HasVar c v o.whenR o.notWhenR ∧
        (o.force = false → Strict g o) := by
  constructor
  · intro h
    unfold LGR.addVariant at h
    split at h
    · simp at h
    rename_i s v hc
    obtain ⟨h1, h2, h3, h4, h5, h6, h7⟩ := addVariantChecks_ok.1 hc
    split at h
    · simp at h
    rename_i r hr
    unfold Repertoire.addVariant at hr
    split at hr
    · simp at hr
    rename_i c hg
    split at hr
    · simp at hr
    rename_i c' hc'
    have hl := getChar_ok.1 hg
    have := (char_addVariant_ok (lookup_charWF hwf hl).varWF (denotes_ne h3)).1 ⟨c', hc'⟩
    rw [h6] at this
    exact ⟨s, v.cp, c, h1, h2, h3, h4, h5, hl, this.1, this.2, h7⟩
  · rintro ⟨s, v, c, h1, h2, h3, h4, h5, hl, hr, hv, h7⟩
    obtain ⟨c', hc'⟩ := (char_addVariant_ok (lookup_charWF hwf hl).varWF
      (v := ⟨v, type, o.whenR, o.notWhenR, o.comment, knownRefs g o⟩) (denotes_ne h3)).2 ⟨hr, hv⟩
    unfold LGR.addVariant
    rw [(addVariantChecks_ok (v := ⟨v, type, o.whenR, o.notWhenR, o.comment, knownRefs g o⟩)).2
      ⟨h1, h2, h3, h4, h5, rfl, h7⟩]
    simp only [Repertoire.addVariant, getChar_ok.2 hl, hc']

/-! Non-vacuity: an accepted and a refused call of each kind, with checks that matter. -/
example : (LGR.addCp (some (fun x => x < 128)) {} (.seq [97, 98])
    { vrep := some (fun x => .ok (x == 97)), override := true }).2 = .ok () := by rfl
example : (LGR.addCp (some (fun x => x < 128)) {} (.seq [97, 98])
    { vrep := some (fun x => .ok (x == 97)) }).2 = .error (.notInRepertoire [97, 98]) := by rfl
example : (LGR.addCp none {} (.seq [97, 98]) { tag := ["t"] }).2 =
    .error (.format "SEQUENCE_NO_TAG") := by rfl
example : ((LGR.addCp none {} (.int 97) { tag := ["t"] }).1.delCp none (.seq [97])).2 = .ok () := by
  rfl
example : ((LGR.addCp none {} (.int 97) { tag := ["t"] }).1.addVariant none (.int 97) (.seq [98, 99])
    (some "blocked") { whenR := some "w" }).2 = .ok () := by rfl

end Lgr.Props.C50

namespace Lgr.Props.C40
open Lgr LGR Repertoire

def Valid (db : UniDb) (x : Nat) : Prop := ∀ valid, db = some valid → valid x = true

/-- What the status of a code point says: nothing wrong, not IDNA-valid, not in the validating
repertoire, or already in the LGR. -/
inductive Says (db : UniDb) (vrep : VRep) (g : LGR) (x : Nat) : Status → Prop
  | fine : Valid db x → (∀ check, vrep = some check → check x = .ok true) →
      g.rep.lookup [x] = none → Says db vrep g x none
  | invalid : ¬ Valid db x → Says db vrep g x (some (.invalidIdna x))
  | outside (check) : Valid db x → vrep = some check → check x = .ok false →
      Says db vrep g x (some (.notInRepertoire [x]))
  | present : Valid db x → (∀ check, vrep = some check → check x = .ok true) →
      (g.rep.lookup [x]).isSome = true → Says db vrep g x (some (.charAlreadyExists [x]))

theorem contains_single (r : Repertoire) (x : Nat) :
    r.contains [x] = .ok (r.lookup [x]).isSome := by
  have : r.hasCp [x] = (r.lookup [x]).isSome := by
    rw [Bool.eq_iff_iff, hasCp_iff]
  simp only [contains, this]

theorem convert_int (db : UniDb) (x : Nat) :
    (Valid db x → checkConvert db true (.int x) = .ok [x]) ∧
    (¬ Valid db x → checkConvert db true (.int x) = .error (.invalidIdna x)) := by
  unfold Valid checkConvert
  cases db with
  | none => simp [convCp]
  | some v =>
    by_cases hv : v x = true
    · simp [convCp, hv]
    · simp [convCp, hv]

/-- The loop does not touch the LGR; it raises only what the validating repertoire raises on an
IDNA-valid code point; otherwise it gives the statuses in order. -/
theorem loop_spec (db : UniDb) (vrep : VRep) (g : LGR) (cps : List Nat) :
    (checkRangeLoop db vrep g cps).1 = g ∧
    ((∃ l, (checkRangeLoop db vrep g cps).2 = .ok l ∧ l.map Prod.fst = cps ∧
        ∀ p ∈ l, Says db vrep g p.1 p.2) ∨
     (∃ e check, ∃ x ∈ cps, (checkRangeLoop db vrep g cps).2 = .error e ∧ vrep = some check ∧
        Valid db x ∧ check x = .error e)) := by
  induction cps with
  | nil => exact ⟨rfl, Or.inl ⟨[], rfl, rfl, by simp⟩⟩
  | cons x cps ih =>
    obtain ⟨ih1, ih2⟩ := ih
    have hg : ({ ({ g with raiseInvalid := true } : LGR) with raiseInvalid := g.raiseInvalid } : LGR)
        = g := rfl
    have rest : ∀ st, Says db vrep g x st →
        ((match checkRangeLoop db vrep g cps with
          | (g', .ok l) => (g', .ok ((x, st) :: l))
          | (g', .error e) => (g', .error e) : LGR × Except Err (List (Nat × Status))).1 = g) ∧
        ((∃ l, (match checkRangeLoop db vrep g cps with
          | (g', .ok l) => (g', .ok ((x, st) :: l))
          | (g', .error e) => (g', .error e) : LGR × Except Err (List (Nat × Status))).2 = .ok l ∧
            l.map Prod.fst = x :: cps ∧ ∀ p ∈ l, Says db vrep g p.1 p.2) ∨
         (∃ e check, ∃ y ∈ x :: cps, (match checkRangeLoop db vrep g cps with
          | (g', .ok l) => (g', .ok ((x, st) :: l))
          | (g', .error e) => (g', .error e) : LGR × Except Err (List (Nat × Status))).2 = .error e ∧
            vrep = some check ∧ Valid db y ∧ check y = .error e)) := by
      intro st hst
      cases hl : checkRangeLoop db vrep g cps with
      | mk g' res =>
        rw [hl] at ih1 ih2
        simp only at ih1 ih2
        cases res with
        | ok l =>
          refine ⟨ih1, Or.inl ⟨(x, st) :: l, rfl, ?_, ?_⟩⟩
          · rcases ih2 with ⟨l', h1, h2, h3⟩ | ⟨e, c, y, hy, h1, h2, h3⟩
            · simp only [Except.ok.injEq] at h1; subst h1; simp [h2]
            · simp at h1
          · rcases ih2 with ⟨l', h1, h2, h3⟩ | ⟨e, c, y, hy, h1, h2, h3⟩
            · simp only [Except.ok.injEq] at h1; subst h1
              intro p hp
              rcases List.mem_cons.1 hp with rfl | hp
              · exact hst
              · exact h3 p hp
            · simp at h1
        | error e =>
          refine ⟨ih1, Or.inr ?_⟩
          rcases ih2 with ⟨l', h1, h2, h3⟩ | ⟨e', c, y, hy, h1, h2, h3⟩
          · simp at h1
          · exact ⟨e', c, y, List.mem_cons_of_mem _ hy, h1, h2, h3⟩
    unfold checkRangeLoop
    simp only [hg]
    by_cases hv : Valid db x
    · rw [(convert_int db x).1 hv]
      simp only [contains_single]
      cases vrep with
      | none =>
        simp only
        cases hp : (g.rep.lookup [x]).isSome with
        | true => exact rest _ (.present hv (by simp) hp)
        | false => exact rest _ (.fine hv (by simp) (by simpa using hp))
      | some check =>
        simp only
        cases hc : check x with
        | error e => exact ⟨rfl, Or.inr ⟨e, check, x, List.mem_cons_self, rfl, rfl, hv, hc⟩⟩
        | ok b =>
          have hall : ∀ c, some check = some c → b = true → c x = .ok true := by
            intro c h1 h2
            simp only [Option.some.injEq] at h1; subst h1; rw [hc, h2]
          cases b with
          | false => exact rest _ (.outside check hv rfl hc)
          | true =>
            cases hp : (g.rep.lookup [x]).isSome with
            | true => exact rest _ (.present hv (fun c h => hall c h rfl) hp)
            | false => exact rest _ (.fine hv (fun c h => hall c h rfl) (by simpa using hp))
    · rw [(convert_int db x).2 hv]
      exact rest _ (.invalid hv)

/-- **C40** `check_range` leaves the LGR (and its IDNA strictness flag) as it was on every exit. -/
theorem check_range_no_effect (db : UniDb) (vrep : VRep) (g : LGR) (f l : Nat) :
    (g.checkRange db f l vrep).1 = g := by
  unfold checkRange
  split
  · rfl
  · exact (loop_spec db vrep g _).1

/-- **C40** It returns one status per code point in order, which says exactly what is wrong. -/
theorem check_range_classifies (db : UniDb) (vrep : VRep) (g : LGR) (f l : Nat)
    (out : List (Nat × Status)) (h : (g.checkRange db f l vrep).2 = .ok out) :
    f ≤ l ∧ out.map Prod.fst = List.range' f (l + 1 - f) ∧
    (∀ p ∈ out, Says db vrep g p.1 p.2) ∧
    ∀ p ∈ out, p.2 = none ↔ (Valid db p.1 ∧ (∀ check, vrep = some check → check p.1 = .ok true) ∧
      g.rep.lookup [p.1] = none) := by
  unfold checkRange at h
  split at h
  · simp at h
  rename_i hfl
  rcases (loop_spec db vrep g (cpRange f l)).2 with ⟨l', h1, h2, h3⟩ | ⟨e, c, y, hy, h1, h2, h3⟩
  · rw [h1] at h
    simp only [Except.ok.injEq] at h; subst h
    refine ⟨by omega, h2, h3, ?_⟩
    intro p hp
    have := h3 p hp
    constructor
    · intro hn
      rw [hn] at this
      cases this with
      | fine a b c => exact ⟨a, b, c⟩
    · rintro ⟨a, b, c⟩
      generalize hst : p.2 = st at this
      cases this with
      | fine => rfl
      | invalid h => exact absurd a h
      | outside check h1 h2 h3 => rw [b check h2] at h3; simp at h3
      | present h1 h2 h3 => rw [c] at h3; simp at h3
  · rw [h1] at h; simp at h

/-- **C40** It raises only on a wrong order of the bounds or when the validating repertoire raises. -/
theorem check_range_raises (db : UniDb) (vrep : VRep) (g : LGR) (f l : Nat) (e : Err)
    (h : (g.checkRange db f l vrep).2 = .error e) :
    l < f ∨ ∃ check x, vrep = some check ∧ f ≤ x ∧ x ≤ l ∧ check x = .error e := by
  unfold checkRange at h
  split at h
  · left; assumption
  rename_i hfl
  rcases (loop_spec db vrep g (cpRange f l)).2 with ⟨l', h1, h2, h3⟩ | ⟨e', c, y, hy, h1, h2, h3, h4⟩
  · rw [h1] at h; simp at h
  · rw [h1] at h
    simp only [Except.error.injEq] at h; subst h
    unfold cpRange at hy
    rw [List.mem_range'_1] at hy
    exact Or.inr ⟨c, y, h2, by omega, by omega, h4⟩

/-! Non-vacuity: the four statuses. -/
example : ((LGR.addCp none {} (.int 99) {}).1.checkRange (some (fun x => x != 98)) 97 100
    (some (fun x => .ok (x != 100)))).2 =
    .ok [(97, none), (98, some (.invalidIdna 98)), (99, some (.charAlreadyExists [99])),
      (100, some (.notInRepertoire [100]))] := by rfl

end Lgr.Props.C40

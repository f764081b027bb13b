import Verif.Props.Checks
import Verif.Props.Compare

/-!
# C72: the rebuilding check
-/

namespace Lgr.Props.C72
open Lgr Checks Validate Repertoire LGR C50 C40

/-! ## Specification -/

/-- The validating repertoire never raises. -/
def Total (vrep : VRep) : Prop := ∀ check, vrep = some check → ∀ x, ∃ b, check x = .ok b

/-- A code point is in the validating repertoire, if there is one. -/
def InRep (vrep : VRep) (x : Nat) : Prop := ∀ check, vrep = some check → check x = .ok true

/-- References are defined and distinct. -/
def RefsFine (m : RefManager) (refs : List String) : Prop :=
  (∀ i ∈ refs, (dget m.refs i).isSome = true) ∧ refs.Nodup

/-- A code point or sequence is fine. -/
def Fine (db : UniDb) (vrep : VRep) (m : RefManager) (c : CharObj) : Prop :=
  (∀ x ∈ c.cp, Valid db x) ∧ (∀ x ∈ c.cp, InRep vrep x) ∧
  (c.attrs.whenR = none ∨ c.attrs.notWhenR = none) ∧ RefsFine m c.attrs.refs ∧
  c.attrs.tags.Nodup ∧ (c.attrs.tags = [] ∨ c.cp.length = 1)

/-- The attributes of a range are fine. -/
def FineRange (m : RefManager) (c : CharObj) : Prop :=
  (c.attrs.whenR = none ∨ c.attrs.notWhenR = none) ∧ RefsFine m c.attrs.refs ∧ c.attrs.tags.Nodup

/-- Something is wrong with an entry: for a range, one of its code points, or its attributes (these are
looked at only when all code points are fine and in script). -/
def Faulty (db : UniDb) (vrep : VRep) (inScript : Nat → Bool) (m : RefManager) (c : CharObj) : Prop :=
  match c.range with
  | none => ¬ Fine db vrep m c
  | some (f, l) => (∃ x, f ≤ x ∧ x ≤ l ∧ ¬ (Valid db x ∧ InRep vrep x)) ∨
    ((∀ x, f ≤ x → x ≤ l → inScript x = true) ∧ ¬ FineRange m c)

/-- What is out of script. -/
def Outside (inScript : Nat → Bool) (c : CharObj) (s : Seq) : Prop :=
  match c.range with
  | none => s = c.cp ∧ ∃ x ∈ c.cp, inScript x = false
  | some (f, l) => ∃ x, s = [x] ∧ f ≤ x ∧ x ≤ l ∧ inScript x = false

/-- Something is wrong with a variant. -/
def FaultyVar (db : UniDb) (m : RefManager) (c : CharObj) (v : Variant) : Prop :=
  ¬ ((∀ x ∈ c.cp, Valid db x) ∧ (∀ x ∈ v.cp, Valid db x) ∧
    (v.whenR = none ∨ v.notWhenR = none) ∧ RefsFine m v.refs)

/-- An entry of the repertoire: for a range, its first code point stands for all. -/
def Listed (r : Repertoire) (k : Seq) (c : CharObj) : Prop :=
  r.lookup k = some c ∧ ∀ f l, c.range = some (f, l) → k = [f]

/-! ## The calls -/

theorem idna_iff {db : UniDb} {g : LGR} (hr : g.raiseInvalid = true) {s : Seq} :
    IdnaOk db g s ↔ ∀ x ∈ s, Valid db x := by
  unfold IdnaOk Valid
  constructor
  · intro h x hx v hv; exact h hr v hv x hx
  · intro h _ v hv x hx; exact h x hx v hv

theorem checkConvert_error {db : UniDb} {g : LGR} {s : Seq} (hs : s ≠ []) {e : Err}
    (h : checkConvert db g.raiseInvalid (.seq s) = .error e) : ∃ x, e = .invalidIdna x := by
  cases s with
  | nil => exact absurd rfl hs
  | cons y s =>
    unfold checkConvert at h
    simp only [convCp] at h
    cases db with
    | none => simp at h
    | some valid =>
      simp only at h
      split at h
      · split at h
        · exact ⟨_, (Except.error.inj h).symm⟩
        · simp at h
      · simp at h

theorem checkVRep_error {check : Nat → Except Err Bool} (ht : ∀ x, ∃ b, check x = .ok b) {len : Bool}
    {whole s : Seq} {e : Err} (h : checkVRep check len whole s = .error e) : e = .notInRepertoire whole := by
  induction s with
  | nil => simp [checkVRep] at h
  | cons x s ih =>
    obtain ⟨b, hb⟩ := ht x
    unfold checkVRep at h
    rw [hb] at h
    cases b with
    | true => exact ih h
    | false =>
      simp only at h
      split at h
      · exact ih h
      · exact (Except.error.inj h).symm

theorem gatherRefs_error {m : RefManager} {force : Bool} {is : List String} {e : Err}
    (h : gatherRefs m force is = .error e) : ∃ i, e = .referenceNotDefined i := by
  induction is with
  | nil => simp [gatherRefs] at h
  | cons i is ih =>
    unfold gatherRefs at h
    split at h
    · split at h
      · rename_i e' he
        obtain rfl := Except.error.inj h
        exact ih he
      · simp at h
    · split at h
      · exact ih h
      · exact ⟨i, (Except.error.inj h).symm⟩

theorem takeRefs_error {m : RefManager} {o : Opts} {whole : Seq} {e : Err}
    (h : takeRefs m o whole = .error e) : isLgrException e = true ∧ isInvalidIdna e = false := by
  unfold takeRefs at h
  split at h
  · rename_i e' he
    obtain ⟨i, hi⟩ := gatherRefs_error he
    rw [← Except.error.inj h, hi]; exact ⟨rfl, rfl⟩
  · split at h
    · rw [← Except.error.inj h]; exact ⟨rfl, rfl⟩
    · simp at h

theorem checkVRepOpt_error {o : Opts} (ht : Total o.vrep) {whole s : Seq} {e : Err}
    (h : checkVRepOpt o whole s = .error e) : isLgrException e = true ∧ isInvalidIdna e = false := by
  unfold checkVRepOpt at h
  split at h
  · simp at h
  · rename_i check hc
    rw [checkVRep_error (ht check hc) h]; exact ⟨rfl, rfl⟩

/-- What `add_cp` raises is an exception of the project; it is `CharInvalidIdnaProperty` iff a code point
is not IDNA-valid. -/
theorem addCp_error {db : UniDb} {g : LGR} {s : Seq} (hs : s ≠ []) {o : Opts} (ht : Total o.vrep) {e : Err}
    (h : (g.addCp db (.seq s) o).2 = .error e) :
    isLgrException e = true ∧ (isInvalidIdna e = true ↔ ¬ IdnaOk db g s) := by
  unfold addCp at h
  split at h
  · rename_i e' he
    have : e' = e := by simpa using h
    subst this
    unfold addCpChecks at he
    split at he
    · rename_i e2 h2
      have : e2 = e' := by simpa using he
      subst this
      obtain ⟨x, rfl⟩ := checkConvert_error hs h2
      refine ⟨rfl, ?_⟩
      simp only [isInvalidIdna, true_iff]
      intro hok
      rw [checkConvert_ok.2 ⟨.seq s hs, hok⟩] at h2
      simp at h2
    · rename_i t htt
      obtain ⟨hd, hok⟩ := checkConvert_ok.1 htt
      have : t = s := by cases hd; rfl
      subst this
      have key : ∀ {e : Err}, isLgrException e = true → isInvalidIdna e = false →
          isLgrException e = true ∧ (isInvalidIdna e = true ↔ ¬ IdnaOk db g t) := by
        intro e h1 h2; exact ⟨h1, by simp [h2, hok]⟩
      split at he
      · rw [← Except.error.inj he]; exact key rfl rfl
      · split at he
        · rename_i e2 h2
          rw [← Except.error.inj he]
          exact key (checkVRepOpt_error ht h2).1 (checkVRepOpt_error ht h2).2
        · split at he
          · rename_i e2 h2
            rw [← Except.error.inj he]
            exact key (takeRefs_error h2).1 (takeRefs_error h2).2
          · split at he
            · rw [← Except.error.inj he]; exact key rfl rfl
            · split at he
              · rw [← Except.error.inj he]; exact key rfl rfl
              · simp at he
  · rename_i t a hc
    obtain ⟨hd, hok, -⟩ := addCpChecks_ok.1 hc
    have : t = s := by cases hd; rfl
    subst this
    split at h
    · rename_i e' he
      have : e' = e := by simpa using h
      subst this
      unfold Repertoire.addChar at he
      rw [if_neg hs] at he
      unfold addCharObj at he
      cases t with
      | nil => exact absurd rfl hs
      | cons i t =>
        simp only at he
        split at he
        · split at he
          · rw [← Except.error.inj he]; exact ⟨rfl, by simp [isInvalidIdna, hok]⟩
          · simp at he
        · simp at he
    · simp at h

/-- What `add_variant` raises, likewise. -/
theorem addVariant_error {db : UniDb} {g : LGR} {s v : Seq} (hs : s ≠ []) (hv : v ≠ []) {t : Option String}
    {o : Opts} (ht : Total o.vrep) {e : Err} (h : (g.addVariant db (.seq s) (.seq v) t o).2 = .error e) :
    isLgrException e = true ∧ (isInvalidIdna e = true ↔ ¬ (IdnaOk db g s ∧ IdnaOk db g v)) := by
  unfold LGR.addVariant at h
  split at h
  · rename_i e' he
    have : e' = e := by simpa using h
    subst this
    unfold addVariantChecks at he
    split at he
    · rename_i e2 h2
      have : e2 = e' := by simpa using he
      subst this
      obtain ⟨x, rfl⟩ := checkConvert_error hs h2
      refine ⟨rfl, ?_⟩
      simp only [isInvalidIdna, true_iff]
      intro hok
      rw [checkConvert_ok.2 ⟨.seq s hs, hok.1⟩] at h2
      simp at h2
    · rename_i s' hss
      obtain ⟨hd, hok⟩ := checkConvert_ok.1 hss
      have : s' = s := by cases hd; rfl
      subst this
      split at he
      · rename_i e2 h2
        have : e2 = e' := by simpa using he
        subst this
        obtain ⟨x, rfl⟩ := checkConvert_error hv h2
        refine ⟨rfl, ?_⟩
        simp only [isInvalidIdna, true_iff]
        intro hok
        rw [checkConvert_ok.2 ⟨.seq v hv, hok.2⟩] at h2
        simp at h2
      · rename_i v' hvv
        obtain ⟨hd, hok'⟩ := checkConvert_ok.1 hvv
        have : v' = v := by cases hd; rfl
        subst this
        have key : ∀ {e : Err}, isLgrException e = true → isInvalidIdna e = false →
            isLgrException e = true ∧ (isInvalidIdna e = true ↔ ¬ (IdnaOk db g s' ∧ IdnaOk db g v')) := by
          intro e h1 h2; exact ⟨h1, by simp [h2, hok, hok']⟩
        split at he
        · rw [← Except.error.inj he]; exact key rfl rfl
        · split at he
          · rename_i e2 h2
            rw [← Except.error.inj he]
            exact key (checkVRepOpt_error ht h2).1 (checkVRepOpt_error ht h2).2
          · split at he
            · rename_i e2 h2
              rw [← Except.error.inj he]
              exact key (takeRefs_error h2).1 (takeRefs_error h2).2
            · simp at he
  · rename_i s' v' hc
    obtain ⟨hd, hok, hd', hok', -, hv', -⟩ := addVariantChecks_ok.1 hc
    have : s' = s := by cases hd; rfl
    subst this
    have hvc : v'.cp = v := by cases hd'; rfl
    rw [hvc] at hok'
    have key : ∀ {e : Err}, isLgrException e = true → isInvalidIdna e = false →
        isLgrException e = true ∧ (isInvalidIdna e = true ↔ ¬ (IdnaOk db g s' ∧ IdnaOk db g v)) := by
      intro e h1 h2; exact ⟨h1, by simp [h2, hok, hok']⟩
    split at h
    · rename_i e' he
      have : e' = e := by simpa using h
      subst this
      unfold Repertoire.addVariant at he
      split at he
      · rename_i e2 h2
        rw [← Except.error.inj he]
        unfold Repertoire.getChar at h2
        split at h2
        · exact absurd rfl hs
        · split at h2
          · obtain rfl := Except.error.inj h2; exact key rfl rfl
          · split at h2
            · simp at h2
            · obtain rfl := Except.error.inj h2; exact key rfl rfl
      · rename_i c hc
        split at he
        · rename_i e2 h2
          rw [← Except.error.inj he]
          unfold CharObj.addVariant at h2
          split at h2
          · rw [← Except.error.inj h2]; exact key rfl rfl
          · split at h2
            · rename_i hn; rw [hvc] at hn; exact absurd hn hv
            · split at h2
              · split at h2
                · rw [← Except.error.inj h2]; exact key rfl rfl
                · simp at h2
              · simp at h2
        · simp at he
    · simp at h

/-! ## One entry -/

/-- The references and flag of the rebuilt LGR, during the loop. -/
structure State (m : RefManager) (g : LGR) : Prop where
  wf : WF g.rep
  refs : g.refs = m
  raises : g.raiseInvalid = true

theorem strict_iff {m : RefManager} {g : LGR} (h : g.refs = m) {o : Opts} :
    Strict g o ↔ (o.whenR = none ∨ o.notWhenR = none) ∧ RefsFine m o.ref := by
  subst h; rfl

theorem rebuildCp_exact {db : UniDb} {vrep : VRep} (ht : Total vrep) {m : RefManager} {c : CharObj}
    (hne : c.cp ≠ []) {s : LGR × List Event} (hs : State m s.1) (habs : s.1.rep.lookup c.cp = none) :
    ∃ g new, rebuildCp db vrep c s = ((g, s.2 ++ new), .ok ()) ∧ State m g ∧
      (∀ k, k ≠ c.cp → g.rep.lookup k = s.1.rep.lookup k) ∧
      ((∀ x ∈ c.cp, Valid db x) → ∃ c', g.rep.lookup c.cp = some c' ∧ c'.range = none ∧
        c'.getVariants = []) ∧
      (new = [] ∧ Fine db vrep m c ∨ ∃ e, new = [.error c.cp e] ∧ ¬ Fine db vrep m c) := by
  have hfine : (s.1.addCp db (.seq c.cp) (charOpts vrep false c.attrs)).2 = .ok () ↔ Fine db vrep m c := by
    rw [add_cp_ok_iff]
    constructor
    · rintro ⟨t, hd, hi, hv, -, hf⟩
      have : t = c.cp := by cases hd; rfl
      subst this
      obtain ⟨h1, h2⟩ := hf rfl
      rw [strict_iff hs.refs] at h1
      refine ⟨(idna_iff hs.raises).1 hi, ?_, h1.1, h1.2, h2.1, h2.2⟩
      intro x hx check hc
      rcases hv check hc x hx with h | ⟨_, h⟩
      · exact h
      · simp [charOpts] at h
    · rintro ⟨h1, h2, h3, h4, h5, h6⟩
      exact ⟨c.cp, .seq _ hne, (idna_iff hs.raises).2 h1, fun check hc x hx => .inl (h2 x hx check hc),
        habs, fun _ => ⟨(strict_iff hs.refs).2 ⟨h3, h4⟩, h5, h6⟩⟩
  have after : ∀ o, (s.1.addCp db (.seq c.cp) o).2 = .ok () →
      State m (s.1.addCp db (.seq c.cp) o).1 ∧
      (∀ k, k ≠ c.cp → (s.1.addCp db (.seq c.cp) o).1.rep.lookup k = s.1.rep.lookup k) ∧
      ∃ c', (s.1.addCp db (.seq c.cp) o).1.rep.lookup c.cp = some c' ∧ c'.range = none ∧
        c'.getVariants = [] := by
    intro o ho
    obtain ⟨t, hd, _, hl, _, _, hr, _, hra⟩ := add_cp_effect db s.1 (.seq c.cp) o ho
    have : t = c.cp := by cases hd; rfl
    subst this
    refine ⟨⟨C30.wf_addCp hs.wf _ _, by rw [hr, hs.refs], by rw [hra, hs.raises]⟩, ?_, ?_⟩
    · intro k hk; rw [hl, if_neg hk]
    · exact ⟨_, by rw [hl, if_pos rfl], rfl, by simp [CharObj.getVariants, sortAsc]⟩
  rcases hres : s.1.addCp db (.seq c.cp) (charOpts vrep false c.attrs) with ⟨g, res⟩
  cases res with
  | ok u =>
    have hok : (s.1.addCp db (.seq c.cp) (charOpts vrep false c.attrs)).2 = .ok () := by rw [hres]
    obtain ⟨a1, a2, a3⟩ := after _ hok
    rw [hres] at a1 a2 a3
    exact ⟨g, [], by simp [rebuildCp, hres], a1, a2, fun _ => a3, .inl ⟨rfl, hfine.1 hok⟩⟩
  | error e =>
    have herr : (s.1.addCp db (.seq c.cp) (charOpts vrep false c.attrs)).2 = .error e := by rw [hres]
    have hg : g = s.1 := by
      have := C02.add_cp_atomic db s.1 _ _ e herr; rwa [hres] at this
    subst hg
    obtain ⟨hl, hi⟩ := addCp_error hne (o := charOpts vrep false c.attrs) ht herr
    have hnf : ¬ Fine db vrep m c := fun h => by rw [hfine.2 h] at herr; simp at herr
    by_cases hinv : isInvalidIdna e = true
    · refine ⟨s.1, [.error c.cp e], by simp [rebuildCp, hres, hl, hinv], hs, fun _ _ => rfl, ?_,
        .inr ⟨e, rfl, hnf⟩⟩
      intro hval
      exact absurd ((idna_iff hs.raises).2 hval) (hi.1 hinv)
    · have hid : IdnaOk db s.1 c.cp := by
        by_contra hn; exact hinv (hi.2 hn)
      have hok : (s.1.addCp db (.seq c.cp) (charOpts none true c.attrs)).2 = .ok () := by
        rw [add_cp_ok_iff]
        exact ⟨c.cp, .seq _ hne, hid, fun check hc => by simp [charOpts] at hc, habs,
          fun h => by simp [charOpts] at h⟩
      obtain ⟨a1, a2, a3⟩ := after _ hok
      refine ⟨_, [.error c.cp e], ?_, a1, a2, fun _ => a3, .inr ⟨e, rfl, hnf⟩⟩
      simp only [rebuildCp, hres, hl, if_true, hinv]
      simp only [Bool.false_eq_true, if_false]
      rw [hok]

/-- What is wrong with a list of variants of one character. -/
theorem rebuildVariants_exact {db : UniDb} {vrep : VRep} (ht : Total vrep) {m : RefManager} {c : CharObj}
    (hne : c.cp ≠ []) (vs : List Variant) (hv : ∀ v ∈ vs, v.cp ≠ []) (hn : (vs.map Variant.key).Nodup)
    (s : LGR × List Event) (hs : State m s.1)
    (hin : (∀ x ∈ c.cp, Valid db x) → ∃ c', s.1.rep.lookup c.cp = some c' ∧ c'.range = none ∧
      ∀ v ∈ vs, ¬ HasVar c' v.cp v.whenR v.notWhenR) :
    ∃ g new, forEach (rebuildVariant db vrep c) s vs = ((g, s.2 ++ new), .ok ()) ∧ State m g ∧
      (∀ k, k ≠ c.cp → g.rep.lookup k = s.1.rep.lookup k) ∧
      (∀ ev ∈ new, ∃ v e, ev = .variant c.cp v e) ∧
      (∀ v, (∃ e, Event.variant c.cp v e ∈ new) ↔ v ∈ vs ∧ FaultyVar db m c v) := by
  induction vs generalizing s with
  | nil => exact ⟨s.1, [], by simp [forEach], hs, fun _ _ => rfl, by simp, by simp⟩
  | cons v vs ih =>
    have hvne := hv v (by simp)
    have hnv : v.key ∉ vs.map Variant.key ∧ (vs.map Variant.key).Nodup := by simpa using hn
    -- one variant
    have step : ∃ g new, rebuildVariant db vrep c s v = ((g, s.2 ++ new), .ok ()) ∧ State m g ∧
        (∀ k, k ≠ c.cp → g.rep.lookup k = s.1.rep.lookup k) ∧
        ((∀ x ∈ c.cp, Valid db x) → ∃ c', g.rep.lookup c.cp = some c' ∧ c'.range = none ∧
          ∀ v ∈ vs, ¬ HasVar c' v.cp v.whenR v.notWhenR) ∧
        (new = [] ∧ ¬ FaultyVar db m c v ∨ ∃ e, new = [.variant c.cp v e] ∧ FaultyVar db m c v) := by
      have hfine : (s.1.addVariant db (.seq c.cp) (.seq v.cp) v.type (varOpts vrep true false v)).2 = .ok () ↔
          ¬ FaultyVar db m c v := by
        rw [add_variant_ok_iff _ _ hs.wf, FaultyVar, not_not]
        constructor
        · rintro ⟨t, u, c', hd, hi, hd', hi', -, -, -, -, hf⟩
          have : t = c.cp := by cases hd; rfl
          subst this
          have : u = v.cp := by cases hd'; rfl
          subst this
          have h1 := hf rfl
          rw [strict_iff hs.refs] at h1
          exact ⟨(idna_iff hs.raises).1 hi, (idna_iff hs.raises).1 hi', h1.1, h1.2⟩
        · rintro ⟨h1, h2, h3, h4⟩
          obtain ⟨c', hl, hr, hh⟩ := hin h1
          refine ⟨c.cp, v.cp, c', .seq _ hne, (idna_iff hs.raises).2 h1, .seq _ hvne,
            (idna_iff hs.raises).2 h2, ?_, hl, hr, hh v (by simp), fun _ => (strict_iff hs.refs).2 ⟨h3, h4⟩⟩
          intro check hc x hx
          obtain ⟨b, hb⟩ := ht check hc x
          cases b with
          | true => exact .inl hb
          | false => exact .inr ⟨hb, .inl rfl⟩
      have after : ∀ o, o.whenR = v.whenR → o.notWhenR = v.notWhenR →
          (s.1.addVariant db (.seq c.cp) (.seq v.cp) v.type o).2 = .ok () →
          State m (s.1.addVariant db (.seq c.cp) (.seq v.cp) v.type o).1 ∧
          (∀ k, k ≠ c.cp → (s.1.addVariant db (.seq c.cp) (.seq v.cp) v.type o).1.rep.lookup k =
            s.1.rep.lookup k) ∧
          ((∀ x ∈ c.cp, Valid db x) →
            ∃ c', (s.1.addVariant db (.seq c.cp) (.seq v.cp) v.type o).1.rep.lookup c.cp = some c' ∧
            c'.range = none ∧ ∀ v ∈ vs, ¬ HasVar c' v.cp v.whenR v.notWhenR) := by
        intro o hw hnw ho
        obtain ⟨t, u, c0, c', hd, hd', hl0, _, hcp, hr, _, hvars, hl, _, _, _, hrefs, hra⟩ :=
          add_variant_effect db s.1 hs.wf (.seq c.cp) (.seq v.cp) v.type o ho
        have : t = c.cp := by cases hd; rfl
        subst this
        have : u = v.cp := by cases hd'; rfl
        subst this
        refine ⟨⟨C30.wf_addVariant hs.wf _ _ _ _, by rw [hrefs, hs.refs], by rw [hra, hs.raises]⟩, ?_, ?_⟩
        · intro k hk; rw [hl, if_neg hk]
        · intro hval
          obtain ⟨c1, h1, h2, h3⟩ := hin hval
          rw [hl0] at h1; obtain rfl := Option.some.inj h1
          refine ⟨c', by rw [hl, if_pos rfl], hr, ?_⟩
          rintro w hw' ⟨u, hu, hk⟩
          rcases (hvars u).1 hu with hu | rfl
          · exact h3 w (by simp [hw']) ⟨u, hu, hk⟩
          · apply hnv.1
            refine List.mem_map.2 ⟨w, hw', ?_⟩
            simp only [Variant.key, hw, hnw] at hk ⊢
            exact hk.symm
      rcases hres : s.1.addVariant db (.seq c.cp) (.seq v.cp) v.type (varOpts vrep true false v) with ⟨g, res⟩
      cases res with
      | ok u =>
        have hok : (s.1.addVariant db (.seq c.cp) (.seq v.cp) v.type (varOpts vrep true false v)).2 =
          .ok () := by rw [hres]
        obtain ⟨a1, a2, a3⟩ := after _ rfl rfl hok
        rw [hres] at a1 a2 a3
        exact ⟨g, [], by simp [rebuildVariant, hres], a1, a2, a3, .inl ⟨rfl, hfine.1 hok⟩⟩
      | error e =>
        have herr : (s.1.addVariant db (.seq c.cp) (.seq v.cp) v.type (varOpts vrep true false v)).2 =
          .error e := by rw [hres]
        have hg : g = s.1 := by
          have := C02.add_variant_atomic db s.1 _ _ _ _ e herr; rwa [hres] at this
        subst hg
        obtain ⟨hl, hi⟩ := addVariant_error hne hvne (o := varOpts vrep true false v) ht herr
        have hnf : FaultyVar db m c v := by
          by_contra h; rw [hfine.2 h] at herr; simp at herr
        by_cases hinv : isInvalidIdna e = true
        · refine ⟨s.1, [.variant c.cp v e], by simp [rebuildVariant, hres, hl, hinv], hs, fun _ _ => rfl, ?_,
            .inr ⟨e, rfl, hnf⟩⟩
          intro hval
          obtain ⟨c', h1, h2, h3⟩ := hin hval
          exact ⟨c', h1, h2, fun w hw => h3 w (by simp [hw])⟩
        · have hid : IdnaOk db s.1 c.cp ∧ IdnaOk db s.1 v.cp := by
            by_contra hn; exact hinv (hi.2 hn)
          obtain ⟨c', h1, h2, h3⟩ := hin ((idna_iff hs.raises).1 hid.1)
          have hok : (s.1.addVariant db (.seq c.cp) (.seq v.cp) v.type (varOpts none false true v)).2 =
              .ok () := by
            rw [add_variant_ok_iff _ _ hs.wf]
            exact ⟨c.cp, v.cp, c', .seq _ hne, hid.1, .seq _ hvne, hid.2,
              fun check hc => by simp [varOpts] at hc, h1, h2, h3 v (by simp),
              fun h => by simp [varOpts] at h⟩
          obtain ⟨a1, a2, a3⟩ := after _ rfl rfl hok
          refine ⟨_, [.variant c.cp v e], ?_, a1, a2, a3, .inr ⟨e, rfl, hnf⟩⟩
          simp only [rebuildVariant, hres, hl, if_true, hinv]
          simp only [Bool.false_eq_true, if_false]
          rw [hok]
    obtain ⟨g, new, e1, e2, e3, e4, e5⟩ := step
    obtain ⟨g', new', i1, i2, i3, i4, i5⟩ := ih (fun w hw => hv w (by simp [hw])) hnv.2 (g, s.2 ++ new) e2 e4
    refine ⟨g', new ++ new', ?_, i2, fun k hk => by rw [i3 k hk, e3 k hk], ?_, ?_⟩
    · simp only [forEach, e1, i1, List.append_assoc]
    · intro ev hev
      rcases List.mem_append.1 hev with hev | hev
      · rcases e5 with ⟨rfl, _⟩ | ⟨e, rfl, _⟩
        · simp at hev
        · exact ⟨v, e, by simpa using hev⟩
      · exact i4 ev hev
    · intro w
      simp only [List.mem_append, List.mem_cons]
      constructor
      · rintro ⟨e, he | he⟩
        · rcases e5 with ⟨rfl, _⟩ | ⟨e, rfl, hf⟩
          · simp at he
          · simp only [List.mem_singleton, Event.variant.injEq, true_and] at he
            rw [he.1]; exact ⟨.inl rfl, hf⟩
        · obtain ⟨h1, h2⟩ := (i5 w).1 ⟨e, he⟩
          exact ⟨.inr h1, h2⟩
      · rintro ⟨rfl | hw, hf⟩
        · rcases e5 with ⟨_, hn⟩ | ⟨e, rfl, _⟩
          · exact absurd hf hn
          · exact ⟨e, .inl (by simp)⟩
        · obtain ⟨e, he⟩ := (i5 w).2 ⟨hw, hf⟩
          exact ⟨e, .inr he⟩

/-- The events of a range before it is added. -/
def scanned (inS : Nat → Bool) (k : Seq) (sts : List (Nat × Status)) : List Event :=
  sts.flatMap fun p => (match p.2 with
    | some e => [.error k e]
    | none => []) ++ (if inS p.1 then [] else [.warning k [p.1]])

theorem rangeEvents_eq (inS : Nat → Bool) (c : CharObj) (sts : List (Nat × Status)) :
    rangeEvents (some inS) c sts = .ok (scanned inS c.cp sts) := by
  induction sts with
  | nil => rfl
  | cons p sts ih =>
    obtain ⟨x, st⟩ := p
    simp only [rangeEvents, cpInScript, ih, scanned, List.flatMap_cons, List.all_cons, List.all_nil,
      Bool.and_true]
    cases st <;> rfl

theorem rebuildRange_exact {db : UniDb} {vrep : VRep} (ht : Total vrep) {inS : Nat → Bool} {m : RefManager}
    {c : CharObj} {f l : Nat} (hfl : f ≤ l) {g : LGR} (hs : State m g) (evs : List Event)
    (habs : ∀ x, f ≤ x → x ≤ l → g.rep.lookup [x] = none) :
    ∃ g' new, rebuildRange db vrep (some inS) g evs c f l = ((g', evs ++ new), .ok ()) ∧ State m g' ∧
      (∀ k, (∀ x, f ≤ x → x ≤ l → k ≠ [x]) → g'.rep.lookup k = g.rep.lookup k) ∧
      (∀ ev ∈ new, (∃ e, ev = .error c.cp e) ∨ ∃ x, ev = .warning c.cp x) ∧
      ((∃ e, Event.error c.cp e ∈ new) ↔ (∃ x, f ≤ x ∧ x ≤ l ∧ ¬ (Valid db x ∧ InRep vrep x)) ∨
        ((∀ x, f ≤ x → x ≤ l → inS x = true) ∧ ¬ FineRange m c)) ∧
      (∀ s, Event.warning c.cp s ∈ new ↔ ∃ x, s = [x] ∧ f ≤ x ∧ x ≤ l ∧ inS x = false) := by
  have hg : (g.checkRange db f l vrep).1 = g := by
    unfold checkRange; rw [if_neg (by omega)]; exact (loop_spec db vrep g _).1
  obtain ⟨sts, hsts⟩ := checkRange_ok_iff (db := db) (vrep := vrep) (g := g) |>.2
    ⟨hfl, fun x _ _ _ check hc => ht check hc x⟩
  obtain ⟨-, hfst, hsays, hnone⟩ := check_range_classifies db vrep g f l sts hsts
  have hres : g.checkRange db f l vrep = (g, .ok sts) := by
    exact Prod.ext hg hsts
  have hmem : ∀ x, f ≤ x → x ≤ l → ∃ st, (x, st) ∈ sts := by
    intro x h1 h2
    have : x ∈ sts.map Prod.fst := by rw [hfst, List.mem_range'_1]; omega
    obtain ⟨p, hp, rfl⟩ := List.mem_map.1 this
    exact ⟨p.2, hp⟩
  have hin : ∀ p ∈ sts, f ≤ p.1 ∧ p.1 ≤ l := by
    intro p hp
    have : p.1 ∈ sts.map Prod.fst := List.mem_map.2 ⟨p, hp, rfl⟩
    rw [hfst, List.mem_range'_1] at this; omega
  have hnone' : ∀ p ∈ sts, p.2 = none ↔ Valid db p.1 ∧ InRep vrep p.1 := by
    intro p hp
    rw [hnone p hp]
    constructor
    · rintro ⟨a, b, -⟩; exact ⟨a, b⟩
    · rintro ⟨a, b⟩; exact ⟨a, b, habs _ (hin p hp).1 (hin p hp).2⟩
  have hkind : ∀ ev ∈ scanned inS c.cp sts, (∃ e, ev = .error c.cp e) ∨ ∃ x, ev = .warning c.cp x := by
    intro ev hev
    obtain ⟨p, _, hp⟩ := List.mem_flatMap.1 hev
    rcases List.mem_append.1 hp with h | h
    · split at h
      · exact .inl ⟨_, by simpa using h⟩
      · simp at h
    · split at h
      · simp at h
      · exact .inr ⟨_, by simpa using h⟩
  have herr : (∃ e, Event.error c.cp e ∈ scanned inS c.cp sts) ↔
      ∃ x, f ≤ x ∧ x ≤ l ∧ ¬ (Valid db x ∧ InRep vrep x) := by
    constructor
    · rintro ⟨e, he⟩
      obtain ⟨p, hp, h⟩ := List.mem_flatMap.1 he
      refine ⟨p.1, (hin p hp).1, (hin p hp).2, ?_⟩
      rw [← hnone' p hp]
      intro hn
      rw [hn] at h
      rcases List.mem_append.1 h with h | h
      · simp at h
      · split at h <;> simp at h
    · rintro ⟨x, h1, h2, h3⟩
      obtain ⟨st, hst⟩ := hmem x h1 h2
      rw [← hnone' (x, st) hst] at h3
      obtain ⟨e, he⟩ := Option.ne_none_iff_exists'.1 h3
      exact ⟨e, List.mem_flatMap.2 ⟨(x, st), hst, List.mem_append.2 (.inl (by simp only at he; simp [he]))⟩⟩
  have hwarn : ∀ s, Event.warning c.cp s ∈ scanned inS c.cp sts ↔
      ∃ x, s = [x] ∧ f ≤ x ∧ x ≤ l ∧ inS x = false := by
    intro s
    constructor
    · intro he
      obtain ⟨p, hp, h⟩ := List.mem_flatMap.1 he
      rcases List.mem_append.1 h with h | h
      · split at h <;> simp at h
      · split at h
        · simp at h
        · rename_i hn
          simp only [List.mem_singleton, Event.warning.injEq, true_and] at h
          exact ⟨p.1, h, (hin p hp).1, (hin p hp).2, by simpa using hn⟩
    · rintro ⟨x, rfl, h1, h2, h3⟩
      obtain ⟨st, hst⟩ := hmem x h1 h2
      exact List.mem_flatMap.2 ⟨(x, st), hst, List.mem_append.2 (.inr (by simp [h3]))⟩
  cases hsc : scanned inS c.cp sts with
  | cons a b =>
    refine ⟨g, a :: b, ?_, hs, fun _ _ => rfl, by rw [← hsc]; exact hkind, ?_, by rw [← hsc]; exact hwarn⟩
    · simp only [rebuildRange, hres, rangeEvents_eq, hsc]
    · rw [← hsc, herr]
      constructor
      · exact .inl
      · rintro (h | ⟨h, _⟩)
        · exact h
        · rcases hkind a (by rw [hsc]; simp) with ⟨e, rfl⟩ | ⟨x, rfl⟩
          · exact herr.1 ⟨e, by rw [hsc]; simp⟩
          · obtain ⟨y, _, h1, h2, h3⟩ := (hwarn x).1 (by rw [hsc]; simp)
            rw [h y h1 h2] at h3; simp at h3
  | nil =>
    rw [hsc] at herr hwarn
    have hall : ∀ x, f ≤ x → x ≤ l → Valid db x ∧ InRep vrep x := by
      intro x h1 h2
      by_contra hn
      obtain ⟨e, he⟩ := herr.2 ⟨x, h1, h2, hn⟩
      simp at he
    have hscript : ∀ x, f ≤ x → x ≤ l → inS x = true := by
      intro x h1 h2
      by_contra hn
      have := (hwarn [x]).2 ⟨x, rfl, h1, h2, by simpa using hn⟩
      simp at this
    have hfine : (g.addRange db f l (charOpts vrep false c.attrs)).2 = .ok () ↔ FineRange m c := by
      rw [C04.add_range_ok_iff db g hs.wf, FineRange]
      constructor
      · rintro ⟨_, _, _, h⟩
        rw [if_neg (by simp [charOpts])] at h
        have h1 := h.1.1
        rw [strict_iff hs.refs] at h1
        exact ⟨h1.1, h1.2, h.1.2⟩
      · rintro ⟨h1, h2, h3⟩
        refine ⟨hfl, fun x _ _ _ check hc => ht check hc x, ?_, ?_⟩
        · rintro x hx1 hx2 ⟨h, _⟩
          rw [habs x hx1 hx2] at h; simp at h
        · rw [if_neg (by simp [charOpts])]
          exact ⟨⟨(strict_iff hs.refs).2 ⟨h1, h2⟩, h3⟩, fun x hx1 hx2 =>
            ⟨habs x hx1 hx2, .inl (hall x hx1 hx2).1, fun _ _ => (hall x hx1 hx2).2⟩⟩
    rcases hadd : g.addRange db f l (charOpts vrep false c.attrs) with ⟨g', res⟩
    cases res with
    | ok u =>
      have hok : (g.addRange db f l (charOpts vrep false c.attrs)).2 = .ok () := by rw [hadd]
      refine ⟨g', [], ?_, ?_, ?_, by simp, ?_, ?_⟩
      · simp [rebuildRange, hres, rangeEvents_eq, hsc, hadd]
      · obtain ⟨_, rs, _, _, _, _, _, _, hr, _, hra, _⟩ := C04.add_range_exact db g hs.wf f l _ hok
        have hwf := (inv_addRangeL (P := fun _ => True) (db := db) (f := f) (l := l)
          (o := charOpts vrep false c.attrs) ⟨hs.wf, by simp⟩ (by simp) (by simp)).wf
        rw [hadd] at hr hra hwf
        exact ⟨hwf, by rw [hr, hs.refs], by rw [hra, hs.raises]⟩
      · obtain ⟨_, rs, _, hcov, _, hk, _⟩ := C04.add_range_exact db g hs.wf f l _ hok
        rw [hadd] at hk
        intro k hkk
        exact hk k fun x hx => hkk x ((hcov x).1 hx).1 ((hcov x).1 hx).2.1
      · constructor
        · rintro ⟨e, he⟩; simp at he
        · rintro (⟨x, h1, h2, h3⟩ | ⟨_, h⟩)
          · exact absurd (hall x h1 h2) h3
          · exact absurd (hfine.1 hok) h
      · exact hwarn
    | error e =>
      have hnf : ¬ FineRange m c := fun h => by
        have := hfine.2 h; rw [hadd] at this; simp at this
      have herr' : (g.addRange db f l (charOpts vrep false c.attrs)).2 = .error e := by rw [hadd]
      have hg' : g' = g := by
        have := C04.add_range_atomic_strict db g hs.wf f l (charOpts vrep false c.attrs) (.inl hs.raises)
          (.inr ⟨rfl, rfl⟩) e herr'
        rwa [hadd] at this
      subst hg'
      have hl : isLgrException e = true := by
        have hsel : ∀ (sts : List (Nat × Status)), (∀ p ∈ sts, p.2 = none) → ∀ r k fo,
            selectCps r k fo sts = .ok (sts.map Prod.fst) := by
          intro sts hn r k fo
          induction sts with
          | nil => rfl
          | cons p sts ih =>
            obtain ⟨x, st⟩ := p
            have : st = none := hn (x, st) (by simp)
            subst this
            simp [selectCps, ih (fun q hq => hn q (by simp [hq]))]
        have hselr := hsel sts (fun p hp => (hnone' p hp).2 (hall _ (hin p hp).1 (hin p hp).2))
        unfold LGR.addRange at herr'
        rw [if_neg (by omega)] at herr'
        split at herr'
        · rw [← Except.error.inj herr']; rfl
        · rename_i hb
          rw [show (charOpts vrep false c.attrs).vrep = vrep from rfl, hres] at herr'
          simp only at herr'
          rw [hselr] at herr'
          simp only at herr'
          split at herr'
          · rename_i e2 h2
            obtain rfl := Except.error.inj herr'
            exact (takeRefs_error h2).1
          · rename_i refs h2
            split at herr'
            · obtain rfl := Except.error.inj herr'; rfl
            · rename_i hd
              exfalso
              apply hnf
              have hro := (takeRefs_ok.1 h2).2 rfl
              refine ⟨not_both.1 hb rfl, ?_, ?_⟩
              · rw [← hs.refs]; exact hro
              · by_contra hx; exact hd ⟨hx, by simp [charOpts]⟩
      refine ⟨g', [.error c.cp e], ?_, hs, fun _ _ => rfl, by simp, ?_, ?_⟩
      · simp [rebuildRange, hres, rangeEvents_eq, hsc, hadd, hl]
      · exact ⟨fun _ => .inr ⟨hscript, hnf⟩, fun _ => ⟨e, by simp⟩⟩
      · intro s
        rw [← hwarn s]; simp

theorem rebuildChar_exact {db : UniDb} {vrep : VRep} (ht : Total vrep) {inS : Nat → Bool} {m : RefManager}
    {c : CharObj} (hc : CharWF c) (hne : c.cp ≠ []) (hrg : ∀ f l, c.range = some (f, l) → f ≤ l)
    {s : LGR × List Event} (hs : State m s.1) (habs : ∀ d ∈ members c, s.1.rep.lookup d.cp = none) :
    ∃ g new, rebuildChar db vrep (some inS) s c = ((g, s.2 ++ new), .ok ()) ∧ State m g ∧
      (∀ k, (∀ d ∈ members c, k ≠ d.cp) → g.rep.lookup k = s.1.rep.lookup k) ∧
      (∀ k, (∃ e, Event.error k e ∈ new) ↔ k = c.cp ∧ Faulty db vrep inS m c) ∧
      (∀ k x, Event.warning k x ∈ new ↔ k = c.cp ∧ Outside inS c x) ∧
      (∀ k v, (∃ e, Event.variant k v e ∈ new) ↔ k = c.cp ∧ v ∈ c.getVariants ∧ FaultyVar db m c v) := by
  cases hr : c.range with
  | some p =>
    obtain ⟨f, l⟩ := p
    have hm : ∀ x, f ≤ x → x ≤ l → { c with cp := [x] } ∈ members c := by
      intro x h1 h2
      unfold members; rw [hr]
      simp only [List.mem_map, mem_cpRange]
      exact ⟨x, ⟨h1, h2⟩, by rw [← hr]⟩
    have hv : c.getVariants = [] := by
      have := hc.varWF.range (by simp [hr])
      simp [CharObj.getVariants, this, sortAsc]
    obtain ⟨g, new, h1, h2, h3, h4, h5, h6⟩ := rebuildRange_exact (db := db) ht (inS := inS) (c := c)
      (hrg f l hr) hs s.2 (fun x hx1 hx2 => habs _ (hm x hx1 hx2))
    refine ⟨g, new, by simp [rebuildChar, hr, h1], h2, ?_, ?_, ?_, ?_⟩
    · intro k hk; exact h3 k fun x hx1 hx2 => hk _ (hm x hx1 hx2)
    · intro k
      have hF : Faulty db vrep inS m c ↔ (∃ x, f ≤ x ∧ x ≤ l ∧ ¬ (Valid db x ∧ InRep vrep x)) ∨
        ((∀ x, f ≤ x → x ≤ l → inS x = true) ∧ ¬ FineRange m c) := by unfold Faulty; rw [hr]
      rw [hF, ← h5]
      constructor
      · rintro ⟨e, he⟩
        rcases h4 _ he with ⟨e', he'⟩ | ⟨x, hx⟩
        · obtain ⟨rfl, rfl⟩ := Event.error.inj he'
          exact ⟨rfl, e, he⟩
        · simp at hx
      · rintro ⟨rfl, h⟩; exact h
    · intro k x
      have hO : Outside inS c x ↔ ∃ y, x = [y] ∧ f ≤ y ∧ y ≤ l ∧ inS y = false := by
        unfold Outside; rw [hr]
      rw [hO, ← h6]
      constructor
      · intro he
        rcases h4 _ he with ⟨e', he'⟩ | ⟨x', hx⟩
        · simp at he'
        · obtain ⟨rfl, rfl⟩ := Event.warning.inj hx
          exact ⟨rfl, he⟩
      · rintro ⟨rfl, h⟩; exact h
    · intro k v
      rw [hv]
      simp only [List.not_mem_nil, false_and, and_false, iff_false]
      rintro ⟨e, he⟩
      rcases h4 _ he with ⟨e', he'⟩ | ⟨x', hx⟩
      · simp at he'
      · simp at hx
  | none =>
    have hmem : members c = [c] := by unfold members; rw [hr]
    have habs' : s.1.rep.lookup c.cp = none := habs c (by rw [hmem]; simp)
    generalize hw : (if c.cp.all inS = true then [] else [Event.warning c.cp c.cp]) = warn
    have hs' : (if c.cp.all inS = true then s else (s.1, s.2 ++ [Event.warning c.cp c.cp])) =
        (s.1, s.2 ++ warn) := by
      rw [← hw]; split <;> simp
    obtain ⟨g, new, h1, h2, h3, h4, h5⟩ := rebuildCp_exact (db := db) ht (m := m) hne
      (s := (s.1, s.2 ++ warn)) hs habs'
    obtain ⟨g', new', i1, i2, i3, i4, i5⟩ := rebuildVariants_exact (db := db) ht (m := m) hne
      c.getVariants (fun v hv => by
        obtain ⟨vs, hd, hvs⟩ := (CharObj.mem_getVariants hc.varWF v).1 hv
        have := (hc.varWF.nonempty _ (mem_of_dget hd)).2
        exact this)
      (C08.getVariants_keys_nodup hc.varWF) (g, (s.2 ++ warn) ++ new) h2
      (fun hval => by
        obtain ⟨c', hl, hr', hvs⟩ := h4 hval
        exact ⟨c', hl, hr', fun v _ ⟨u, hu, _⟩ => by rw [hvs] at hu; simp at hu⟩)
    refine ⟨g', warn ++ new ++ new', ?_, i2, ?_, ?_, ?_, ?_⟩
    · simp only [rebuildChar, hr, cpInScript, hs', h1, i1]
      simp only [List.append_assoc]
    · intro k hk
      have hk' : k ≠ c.cp := hk c (by rw [hmem]; simp)
      rw [i3 k hk', h3 k hk']
    · intro k
      have hF : Faulty db vrep inS m c ↔ ¬ Fine db vrep m c := by unfold Faulty; rw [hr]
      rw [hF]
      constructor
      · rintro ⟨e, he⟩
        rcases List.mem_append.1 he with he | he
        · rcases List.mem_append.1 he with he | he
          · rw [← hw] at he; split at he <;> simp at he
          · rcases h5 with ⟨rfl, _⟩ | ⟨e', rfl, hn⟩
            · simp at he
            · simp only [List.mem_singleton, Event.error.injEq] at he
              exact ⟨he.1, hn⟩
        · obtain ⟨v, e', h⟩ := i4 _ he
          simp at h
      · rintro ⟨rfl, hn⟩
        rcases h5 with ⟨_, hf⟩ | ⟨e', rfl, _⟩
        · exact absurd hf hn
        · exact ⟨e', by simp⟩
    · intro k x
      have hO : Outside inS c x ↔ x = c.cp ∧ ∃ y ∈ c.cp, inS y = false := by unfold Outside; rw [hr]
      rw [hO]
      constructor
      · intro he
        rcases List.mem_append.1 he with he | he
        · rcases List.mem_append.1 he with he | he
          · rw [← hw] at he
            split at he
            · simp at he
            · rename_i hn
              simp only [List.mem_singleton, Event.warning.injEq] at he
              refine ⟨he.1, he.2, ?_⟩
              simpa using hn
          · rcases h5 with ⟨rfl, _⟩ | ⟨e', rfl, hn⟩ <;> simp at he
        · obtain ⟨v, e', h⟩ := i4 _ he
          simp at h
      · rintro ⟨rfl, rfl, y, hy, hn⟩
        have : ¬ c.cp.all inS = true := by
          intro ha; rw [List.all_eq_true] at ha; rw [ha y hy] at hn; simp at hn
        rw [← hw, if_neg this]; simp
    · intro k v
      constructor
      · rintro ⟨e, he⟩
        rcases List.mem_append.1 he with he | he
        · rcases List.mem_append.1 he with he | he
          · rw [← hw] at he; split at he <;> simp at he
          · rcases h5 with ⟨rfl, _⟩ | ⟨e', rfl, hn⟩ <;> simp at he
        · obtain ⟨v', e', h⟩ := i4 _ he
          obtain ⟨rfl, rfl, rfl⟩ := Event.variant.inj h
          exact ⟨rfl, (i5 v).1 ⟨e, he⟩⟩
      · rintro ⟨rfl, h⟩
        obtain ⟨e, he⟩ := (i5 v).2 h
        exact ⟨e, by simp [he]⟩

theorem rebuildLoop_exact {db : UniDb} {vrep : VRep} (ht : Total vrep) {inS : Nat → Bool} {m : RefManager}
    (cs : List CharObj) (hcs : ∀ c ∈ cs, CharWF c ∧ c.cp ≠ [] ∧ ∀ f l, c.range = some (f, l) → f ≤ l)
    (hn : ((cs.flatMap members).map CharObj.cp).Nodup) (s : LGR × List Event) (hs : State m s.1)
    (habs : ∀ d ∈ cs.flatMap members, s.1.rep.lookup d.cp = none) :
    ∃ g new, forEach (rebuildChar db vrep (some inS)) s cs = ((g, s.2 ++ new), .ok ()) ∧
      (∀ k, (∃ e, Event.error k e ∈ new) ↔ ∃ c ∈ cs, k = c.cp ∧ Faulty db vrep inS m c) ∧
      (∀ k x, Event.warning k x ∈ new ↔ ∃ c ∈ cs, k = c.cp ∧ Outside inS c x) ∧
      (∀ k v, (∃ e, Event.variant k v e ∈ new) ↔
        ∃ c ∈ cs, k = c.cp ∧ v ∈ c.getVariants ∧ FaultyVar db m c v) := by
  induction cs generalizing s with
  | nil => exact ⟨s.1, [], by simp [forEach], by simp, by simp, by simp⟩
  | cons c cs ih =>
    obtain ⟨hc, hne, hrg⟩ := hcs c (by simp)
    rw [List.flatMap_cons, List.map_append, List.nodup_append] at hn
    obtain ⟨_, hn2, hdis⟩ := hn
    obtain ⟨g, new, h1, h2, h3, h4, h5, h6⟩ := rebuildChar_exact (db := db) ht (inS := inS) hc hne hrg hs
      (fun d hd => habs d (by simp [hd]))
    obtain ⟨g', new', i1, i2, i3, i4⟩ := ih (fun d hd => hcs d (by simp [hd])) hn2 (g, s.2 ++ new) h2
      (fun d hd => by
        show g.rep.lookup d.cp = none
        rw [h3 d.cp ?_]
        · exact habs d (by rw [List.flatMap_cons]; exact List.mem_append.2 (.inr hd))
        · intro d' hd' he
          exact hdis d'.cp (List.mem_map.2 ⟨d', hd', rfl⟩) d.cp (List.mem_map.2 ⟨d, hd, rfl⟩) he.symm)
    refine ⟨g', new ++ new', by simp [forEach, h1, i1], ?_, ?_, ?_⟩
    · intro k
      simp only [List.mem_append, List.mem_cons, exists_eq_or_imp, ← h4, ← i2, exists_or]
    · intro k x
      simp only [List.mem_append, List.mem_cons, exists_eq_or_imp, ← h5, ← i3]
    · intro k v
      simp only [List.mem_append, List.mem_cons, exists_eq_or_imp, ← h6, ← i4, exists_or]

/-! ## Theorems -/

/-- **C72, partly** On an LGR with intact ranges and a Unicode database, with a validating repertoire that
does not raise, rebuilding does not raise, and reports exactly the entries and variants that are faulty
or out of script. -/
theorem rebuild_exact_partial (db : UniDb) (vrep : VRep) (ht : Total vrep) (inS : Nat → Bool)
    (ops : List (Ctx × LGR.Op)) (hops : Along RangeSafe {} ops) :
    ∃ g' evs, rebuildLgr db vrep (some inS) (LGR.run {} ops) = ((g', evs), .ok ()) ∧
      (∀ k, (∃ e, Event.error k e ∈ evs) ↔ ∃ c, Listed (LGR.run {} ops).rep k c ∧
        Faulty db vrep inS (LGR.run {} ops).refs c) ∧
      (∀ k x, Event.warning k x ∈ evs ↔ ∃ c, Listed (LGR.run {} ops).rep k c ∧ Outside inS c x) ∧
      (∀ k v, (∃ e, Event.variant k v e ∈ evs) ↔ ∃ c, Listed (LGR.run {} ops).rep k c ∧
        v ∈ c.getVariants ∧ FaultyVar db (LGR.run {} ops).refs c v) := by
  have h := (run_wf ops).1
  have hi := (C06.intact_history ops hops)
  generalize LGR.run {} ops = g at *
  have hlist : ∀ c, c ∈ g.rep.iter ↔ Listed g.rep c.cp c := fun c => mem_iter_intact h hi c
  have hex : ∀ (k : Seq) (P : CharObj → Prop), (∃ c ∈ g.rep.iter, k = c.cp ∧ P c) ↔
      ∃ c, Listed g.rep k c ∧ P c := by
    intro k P
    constructor
    · rintro ⟨c, hc, rfl, hp⟩; exact ⟨c, (hlist c).1 hc, hp⟩
    · rintro ⟨c, hc, hp⟩
      obtain rfl := lookup_cp hc.1
      exact ⟨c, (hlist c).2 hc, rfl, hp⟩
  have hnd : ((g.rep.iter.flatMap members).map CharObj.cp).Nodup := by
    refine List.Nodup.map_on ?_ (members_nodup h hi)
    intro x hx y hy hxy
    have h1 := (mem_members_iter h hi x).1 hx
    have h2 := (mem_members_iter h hi y).1 hy
    rw [hxy, h2] at h1
    exact (Option.some.inj h1).symm
  obtain ⟨g', new, h1, h2, h3, h4⟩ := rebuildLoop_exact (db := db) ht (inS := inS) (m := g.refs) g.rep.iter
    (fun c hc => by
      have hl := ((hlist c).1 hc).1
      refine ⟨lookup_charWF h hl, ?_, ?_⟩
      · obtain ⟨i, t, he, _⟩ := (lookup_eq_some h).1 hl
        rw [he]; simp
      · intro f l hr
        have := (hi.full f l (hi.marked _ c _ hl hr)).1
        omega)
    hnd ({ refs := g.refs }, []) ⟨(run_wf []).1, rfl, rfl⟩ (fun d _ => by cases d.cp <;> rfl)
  refine ⟨g', new, by simpa [rebuildLgr] using h1, ?_, ?_, ?_⟩
  · intro k; rw [h2, hex k]
  · intro k x; rw [h3, hex k]
  · intro k v; rw [h4]; exact hex k _

/-- A code point out of script with an undefined reference, one with a variant that is not IDNA-valid,
and a range with a member that is not IDNA-valid. -/
def sample : List (Ctx × LGR.Op) :=
  [(C06.ctx0, .addReference "r" none (some "1")),
   (C06.ctx0, .addCp (.int 97) { ref := ["1"] }), (C06.ctx0, .addVariant (.int 97) (.int 65) none {}),
   (C06.ctx0, .addCp (.int 98) { tag := ["t", "t"], force := true }), (C06.ctx0, .addRange 100 102 {})]

example : Total (some fun x => .ok (x != 97)) ∧ Along RangeSafe {} sample ∧
    (rebuildLgr (some fun x => x != 65 && x != 101) (some fun x => .ok (x != 97)) (some fun x => x != 98)
      (LGR.run {} sample)).1.2 =
      [.error [97] (.notInRepertoire [97]), .variant [97] ⟨[65], none, none, none, none, []⟩ (.invalidIdna 65),
       .warning [98] [98], .error [98] (.format "DUPLICATE_TAG"), .error [100] (.invalidIdna 101)] := by
  refine ⟨?_, ⟨trivial, trivial, trivial, trivial, .inl (by decide +kernel), trivial⟩, by decide +kernel⟩
  rintro check hc x
  obtain rfl := Option.some.inj hc
  exact ⟨_, rfl⟩

/-- **C72** is violated by an LGR without Unicode database: unless it is empty, the check raises
`AttributeError`. -/
theorem no_database : (rebuildLgr none none none (LGR.run {} [(C06.ctx0, .addCp (.int 97) {})])).2 =
    .error .attributeError := by decide +kernel

/-- **C72** is violated when a member of a range is deleted and added again: the code point is inserted
twice, which raises. -/
theorem readded_member_raises :
    (rebuildLgr none none (some fun _ => true) (LGR.run {} [(C06.ctx0, .addRange 97 99 {}),
      (C06.ctx0, .delCp (.int 98)), (C06.ctx0, .addCp (.int 98) {})])).2 =
    .error (.charAlreadyExists [98]) := by decide +kernel

end Lgr.Props.C72

import Verif.Props.PopulateTotal
import Verif.Props.DocXml
import Verif.PopulateTool

/-!
# C130: an LGR read from a document can be written again after its variants are populated
-/

namespace Lgr.Props.C130
open Lgr LGR Repertoire Xml DocXml C50 C26 C34 C06 C104 C28 Populate

variable {db : UniDb} {strict force : Bool} {m : RefManager} {N : Prop}

/-- A variant that can be written and read again. -/
structure VarOk (db : UniDb) (strict force : Bool) (m : RefManager) (v : Variant) : Prop where
  allowed : Allowed db strict v.cp
  refs : ∀ i ∈ v.refs, (dget m.refs i).isSome = true
  words : Words v.refs
  plain : force = false → (v.whenR = none ∨ v.notWhenR = none) ∧ v.refs.Nodup
  xml : ∀ s ∈ varTexts v, xmlOk s = true

/-- The types recorded are those of the variants. -/
def TypesOk (g : LGR) : Prop := ∀ t, t ∈ g.types ↔ ∃ x v, Maps g x v ∧ v.type = t

/-- What every step keeps; `N` stands for the absence of empty rule names. -/
structure Steady (db : UniDb) (strict force : Bool) (m : RefManager) (N : Prop) (g : LGR) : Prop where
  refs : g.refs = m
  raises : g.raiseInvalid = strict
  vars : ∀ x v, Maps g x v → VarOk db strict force m v
  types : N → NoEmpty g ∧ TypesOk g

theorem blocked_ok : xmlOk "blocked" = true := by decide +kernel

theorem add_types {g g' : LGR} (hwf : WF g.rep) {s v : Seq} {type : Option String} {o : Opts}
    (h : g.addVariant db (.seq s) (.seq v) type o = (g', .ok ())) :
    ∀ t, t ∈ g'.types ↔ t ∈ g.types ∨ t = type := by
  have hok : (g.addVariant db (.seq s) (.seq v) type o).2 = .ok () := by rw [h]
  have hg : (g.addVariant db (.seq s) (.seq v) type o).1 = g' := by rw [h]
  obtain ⟨-, -, -, -, -, -, -, -, -, -, -, -, -, -, ht, -⟩ := add_variant_effect db g hwf _ _ _ _ hok
  rw [hg] at ht
  exact ht

/-- What a new variant needs. -/
structure NewOk (type : Option String) (o : Opts) : Prop where
  force : o.force = false
  vrep : o.vrep = none
  type : ∀ s, type = some s → xmlOk s = true
  whenR : ∀ s, o.whenR = some s → xmlOk s = true
  notWhenR : ∀ s, o.notWhenR = some s → xmlOk s = true
  comment : ∀ s, o.comment = some s → xmlOk s = true
  ref : ∀ s ∈ o.ref, xmlOk s = true
  words : Words o.ref

theorem new_ok {g g' : LGR} (hwf : WF g.rep) (hm : g.refs = m) (hr : g.raiseInvalid = strict) {s v : Seq}
    {type : Option String} {o : Opts} (hn : NewOk type o)
    (h : g.addVariant db (.seq s) (.seq v) type o = (g', .ok ())) :
    VarOk db strict force m ⟨v, type, o.whenR, o.notWhenR, o.comment, knownRefs g o⟩ := by
  have hok : (g.addVariant db (.seq s) (.seq v) type o).2 = .ok () := by rw [h]
  obtain ⟨s', v', -, -, -, hd, hi, -, -, -, -, hst⟩ := (add_variant_ok_iff db g hwf _ _ _ _).1 hok
  rw [denotes_seq hd] at hi
  obtain ⟨h1, h2⟩ := hst hn.force
  have hk : knownRefs g o = o.ref := List.filter_eq_self.2 h2.1
  rw [hk]
  refine ⟨by rw [← hr]; exact hi, fun i hi => by rw [← hm]; exact h2.1 i hi, hn.words, fun _ => ⟨h1, h2.2⟩, fun t ht => ?_⟩
  simp only [varTexts, List.mem_append, Option.mem_toList] at ht
  rcases ht with (((ht | ht) | ht) | ht) | ht
  all_goals first | exact hn.type t ht | exact hn.whenR t ht | exact hn.notWhenR t ht | exact hn.comment t ht | exact hn.ref t ht

theorem steady_add {g g' : LGR} (hwf : WF g.rep) (hs : Steady db strict force m N g) {s v : Seq}
    {type : Option String} {o : Opts} (hn : NewOk type o)
    (hne : N → o.whenR ≠ some "" ∧ o.notWhenR ≠ some "")
    (h : g.addVariant db (.seq s) (.seq v) type o = (g', .ok ())) : Steady db strict force m N g' := by
  obtain ⟨f, -, -, -, hm⟩ := addVar_step hwf h
  have ht := add_types hwf h
  refine ⟨f.refs.trans hs.refs, f.raise.trans hs.raises, fun x u hu => ?_, fun hN => ⟨fun x u hu => ?_, fun t => ?_⟩⟩
  · rcases (hm x u).1 hu with h1 | ⟨-, rfl⟩
    · exact hs.vars x u h1
    · exact new_ok hwf hs.refs hs.raises hn h
  · rcases (hm x u).1 hu with h1 | ⟨-, rfl⟩
    · exact (hs.types hN).1 x u h1
    · exact hne hN
  · rw [ht, (hs.types hN).2]
    constructor
    · rintro (⟨x, u, h1, h2⟩ | rfl)
      · exact ⟨x, u, (hm x u).2 (.inl h1), h2⟩
      · exact ⟨s, _, (hm _ _).2 (.inr ⟨rfl, rfl⟩), rfl⟩
    · rintro ⟨x, u, h1, h2⟩
      rcases (hm x u).1 h1 with h1 | ⟨-, rfl⟩
      · exact .inl ⟨x, u, h1, h2⟩
      · exact .inr h2.symm

theorem del_types {g g' : LGR} (hwf : WF g.rep) {s v : Seq} {b : Bool}
    (h : g.delVariant db (.seq s) (.seq v) none none = (g', .ok b)) : g'.types = g.types := by
  have hok : (g.delVariant db (.seq s) (.seq v) none none).2 = .ok b := by rw [h]
  have hg : (g.delVariant db (.seq s) (.seq v) none none).1 = g' := by rw [h]
  obtain ⟨-, -, -, -, -, -, -, -, -, -, -, -, -, -, -, ht, -⟩ := del_variant_effect db g hwf _ _ _ _ _ hok
  rw [hg] at ht
  exact ht

theorem var_new {v : Variant} (hv : VarOk db strict force m v) {o : Opts} (hf : o.force = false) (hp : o.vrep = none)
    (hw : ∀ s, o.whenR = some s → xmlOk s = true) (hn : ∀ s, o.notWhenR = some s → xmlOk s = true) :
    NewOk v.type { o with comment := v.comment, ref := v.refs } where
  force := hf
  vrep := hp
  type := fun s hs => hv.xml s (by simp [varTexts, hs])
  whenR := hw
  notWhenR := hn
  comment := fun s hs => hv.xml s (by simp only [varTexts, List.mem_append, Option.mem_toList]; simp only at hs; simp [hs])
  ref := fun s hs => hv.xml s (by simp only [varTexts, List.mem_append]; exact .inr hs)
  words := hv.words

theorem blocked_new {o : Opts} (hf : o.force = false) (hp : o.vrep = none) (hc : o.comment = none) (hr : o.ref = [])
    (hw : ∀ s, o.whenR = some s → xmlOk s = true) (hn : ∀ s, o.notWhenR = some s → xmlOk s = true) :
    NewOk (some "blocked") o where
  force := hf
  vrep := hp
  type := fun s hs => by cases hs; exact blocked_ok
  whenR := hw
  notWhenR := hn
  comment := fun s hs => by rw [hc] at hs; cases hs
  ref := fun s hs => by rw [hr] at hs; simp at hs
  words := by rw [hr]; exact ⟨by simp, by simp⟩

theorem steady_replace {g g' : LGR} (hwf : WF g.rep) (hs : Steady db strict force m N g) {a b : Seq} {r : Variant}
    {o : Opts} {cond : Prop} (hrc : r.cp = a) (hv : VarOk db strict force m r) (hR : Repl g a b r cond) (hc : cond)
    (hf : o.force = false) (hp : o.vrep = none) (hw : ∀ s, o.whenR = some s → xmlOk s = true)
    (hn : ∀ s, o.notWhenR = some s → xmlOk s = true) (hne : o.whenR ≠ some "" ∧ o.notWhenR ≠ some "")
    (h : replaceVariant db g b r o = (g', .ok ())) : Steady db strict force m N g' := by
  unfold replaceVariant at h
  split at h
  · simp at h
  rename_i g1 d hd
  obtain ⟨f1, i1, m1⟩ := delVar_step hwf hd
  obtain ⟨f2, -, i2, -, m2⟩ := addVar_step f1.wf h
  have ht := add_types f1.wf h
  have hN' := new_ok (force := force) f1.wf (f1.refs.trans hs.refs) (f1.raise.trans hs.raises) (var_new hv hf hp hw hn) h
  have hm : ∀ x u, Maps g' x u ↔ (Maps g x u ∧ ¬ (x = b ∧ u.key = (r.cp, none, none))) ∨
      (x = b ∧ u = ⟨r.cp, r.type, o.whenR, o.notWhenR, r.comment, knownRefs g1 { o with comment := r.comment, ref := r.refs }⟩) := by
    intro x u; rw [m2, m1]
  refine ⟨f2.refs.trans (f1.refs.trans hs.refs), f2.raise.trans (f1.raise.trans hs.raises), fun x u hu => ?_,
    fun hN => ⟨fun x u hu => ?_, fun t => ?_⟩⟩
  · rcases (hm x u).1 hu with h1 | ⟨-, rfl⟩
    · exact hs.vars x u h1.1
    · exact hN'
  · rcases (hm x u).1 hu with h1 | ⟨-, rfl⟩
    · exact (hs.types hN).1 x u h1.1
    · exact hne
  · rw [ht, del_types hwf hd, (hs.types hN).2]
    constructor
    · rintro (⟨x, u, h1, h2⟩ | rfl)
      · by_cases hk : x = b ∧ u.key = (r.cp, none, none)
        · obtain ⟨rfl, hk⟩ := hk
          refine ⟨x, _, (hm _ _).2 (.inr ⟨rfl, rfl⟩), ?_⟩
          rw [hrc] at hk
          rw [← h2]
          exact (hR.2 hc (hs.types hN).1 u h1 hk).1.symm
        · exact ⟨x, u, (hm x u).2 (.inl ⟨h1, hk⟩), h2⟩
      · exact ⟨b, _, (hm _ _).2 (.inr ⟨rfl, rfl⟩), rfl⟩
    · rintro ⟨x, u, h1, h2⟩
      rcases (hm x u).1 h1 with h1 | ⟨-, rfl⟩
      · exact .inl ⟨x, u, h1.1, h2⟩
      · exact .inr h2.symm

theorem steady_fixRule {g g' : LGR} (hwf : WF g.rep) (hs : Steady db strict force m N g) {a : Seq} {b : Variant}
    {r0 : Variant} {rest : List Variant} {rule same other : Option String} {o : Opts} (hrc : r0.cp = a)
    (hv : VarOk db strict force m r0) {cond : Prop}
    (hcond : truthy same = false → truthy other = false → cond) (hR : Repl g a b.cp r0 cond)
    (ho : o = { whenR := rule } ∨ o = { notWhenR := rule }) (hx : ∀ s, rule = some s → xmlOk s = true)
    (h : fixRule db g a b (r0 :: rest) rule same other o = (g', .ok ())) : Steady db strict force m N g' := by
  have skip : ∀ {g'}, (g, (.ok () : Except Err Unit)) = (g', .ok ()) → Steady db strict force m N g' := by
    intro g' h
    simp only [Prod.mk.injEq, and_true] at h
    subst h
    exact hs
  unfold fixRule at h
  split at h
  · exact skip h
  split at h
  · rename_i hr
    simp only [Bool.and_eq_true, Bool.not_eq_true'] at hr
    have hne : o.whenR ≠ some "" ∧ o.notWhenR ≠ some "" := by
      obtain ⟨s, rfl, hs⟩ := truthy_iff.1 hr.1
      rcases ho with rfl | rfl <;> simp [hs]
    have hw : ∀ s, o.whenR = some s → xmlOk s = true := by
      rcases ho with rfl | rfl
      · exact hx
      · intro s hs; cases hs
    have hn : ∀ s, o.notWhenR = some s → xmlOk s = true := by
      rcases ho with rfl | rfl
      · intro s hs; cases hs
      · exact hx
    have hp : o.force = false ∧ o.vrep = none ∧ o.comment = none ∧ o.ref = [] := by
      rcases ho with rfl | rfl <;> exact ⟨rfl, rfl, rfl, rfl⟩
    by_cases hoth : truthy other = true
    · rw [if_pos hoth] at h
      exact steady_add hwf hs (blocked_new hp.1 hp.2.1 hp.2.2.1 hp.2.2.2 hw hn) (fun _ => hne) h
    · rw [if_neg hoth] at h
      exact steady_replace hwf hs hrc hv hR (hcond hr.2 (by simpa using hoth)) hp.1 hp.2.1 hw hn hne h
  · exact skip h

theorem rules_ok {v : Variant} (hv : VarOk db strict force m v) :
    (∀ s, v.whenR = some s → xmlOk s = true) ∧ ∀ s, v.notWhenR = some s → xmlOk s = true :=
  ⟨fun s hs => hv.xml s (by simp [varTexts, hs]), fun s hs => hv.xml s (by simp [varTexts, hs])⟩

theorem steady_sym {g g' : LGR} (hwf : WF g.rep) (hs : Steady db strict force m N g) {a : Seq} {b : Variant}
    (hab : Maps g a b) (h : symBody db a g b = (g', .ok ())) : Steady db strict force m N g' := by
  have hb : b.cp ≠ [] := maps_ne hwf hab
  obtain ⟨bw, bn⟩ := rules_ok (hs.vars _ _ hab)
  unfold symBody at h
  split at h
  · simp at h
  rename_i vs hvs
  obtain ⟨hi, c, hl, rfl⟩ := (getVariants_ok hb).1 hvs
  have hrev : ∀ w, w ∈ c.getVariants.filter (fun v => decide (a = v.cp)) ↔
      Maps g b.cp w ∧ w.cp = a := by
    intro w
    have hm : Maps g b.cp w ↔ w ∈ c.getVariants := by unfold Maps; rw [hl]; simp
    rw [hm]; simp [eq_comm]
  simp only at h
  generalize hrv : c.getVariants.filter (fun v => decide (a = v.cp)) = reverse at h hrev
  by_cases h0 : reverse = []
  · rw [if_pos h0] at h
    exact steady_add hwf hs (blocked_new rfl rfl rfl rfl bw bn) (fun hN => (hs.types hN).1 a b hab) h
  · rw [if_neg h0] at h
    obtain ⟨r0, rest, rfl⟩ := List.exists_cons_of_ne_nil h0
    have hr0 := (hrev r0).1 (by simp)
    split at h
    · simp at h
    rename_i g1 h1
    have hpre := repl_first hwf hr0.1 hr0.2 rest
    have hv0 := hs.vars _ _ hr0.1
    by_cases hab' : a = b.cp
    · have hbm : b ∈ r0 :: rest := (hrev b).2 ⟨by rw [← hab']; exact hab, hab'.symm⟩
      have e1 := fixRule_own hbm h1
      have e2 := fixRule_own hbm h
      subst e1 e2
      exact hs
    obtain ⟨t1, p1⟩ := fixRule_spec hwf hr0.2 (fun h2 h3 => ⟨h2, h3⟩) (fun h2 => h2.2) hpre hab'
      (fun w hw => ⟨a, b, hab, .inl hw⟩) (.inl rfl) h1
    have s1 := steady_fixRule hwf hs hr0.2 hv0 (fun h2 h3 => ⟨h2, h3⟩) hpre (.inl rfl) bw h1
    exact steady_fixRule t1.wf s1 hr0.2 hv0 (fun h2 h3 => ⟨h3, h2⟩) p1 (.inr rfl) bn h

theorem steady_transLoop {a : Seq} (cs : List Variant) {g g' : LGR} (hwf : WF g.rep)
    (hs : Steady db strict force m N g) (h : forEach (transStep db a) g cs = (g', .ok ())) :
    Steady db strict force m N g' := by
  induction cs generalizing g with
  | nil =>
    simp only [forEach, Prod.mk.injEq, and_true] at h
    subst h
    exact hs
  | cons c cs ih =>
    simp only [forEach] at h
    split at h
    · simp at h
    rename_i g1 h1
    unfold transStep at h1
    split at h1
    · simp only [Prod.mk.injEq, and_true] at h1; subst h1; exact ih hwf hs h
    · split at h1
      · exact ih (addVar_step hwf h1).1.wf
          (steady_add hwf hs (blocked_new rfl rfl rfl rfl (by simp) (by simp)) (fun _ => by simp) h1) h
      · simp only [Prod.mk.injEq, and_true] at h1; subst h1; exact ih hwf hs h

theorem steady_trans {g g' : LGR} (hwf : WF g.rep) (hs : Steady db strict force m N g) {a : Seq} {b : Variant}
    (h : transBody db a g b = (g', .ok ())) : Steady db strict force m N g' := by
  unfold transBody at h
  split at h
  · simp at h
  · exact steady_transLoop _ hwf hs h

theorem steady_miss {g g' : LGR} (hwf : WF g.rep) (hs : Steady db strict force m N g) {a : Seq} {b : Variant}
    (h : missBody db a g b = (g', .ok ())) : Steady db strict force m N g' := by
  unfold missBody at h
  split at h
  · split at h
    · simp at h
    rename_i g1 h1
    obtain ⟨f1, i1, m1⟩ := addCp_step hwf h1
    have ht : g1.types = g.types := by
      have hok : (g.addCp db (.seq b.cp) {}).2 = .ok () := by rw [h1]
      have hg : (g.addCp db (.seq b.cp) {}).1 = g1 := by rw [h1]
      obtain ⟨-, -, -, -, -, -, -, ht, -⟩ := add_cp_effect db g _ _ hok
      rw [hg] at ht
      exact ht
    have s1 : Steady db strict force m N g1 := by
      refine ⟨f1.refs.trans hs.refs, f1.raise.trans hs.raises, fun x u hu => hs.vars x u ((m1 x u).1 hu),
        fun hN => ⟨fun x u hu => (hs.types hN).1 x u ((m1 x u).1 hu), fun t => ?_⟩⟩
      rw [ht, (hs.types hN).2]
      simp only [m1]
    exact steady_add f1.wf s1 (blocked_new rfl rfl rfl rfl (by simp) (by simp)) (fun _ => by simp) h
  · simp at h
  · simp only [Prod.mk.injEq, and_true] at h; subst h; exact hs

theorem steady_sweep {f : Seq → LGR → Variant → LGR × Except Err Unit}
    {newIn : Seq → Variant → Seq → Prop} {newPair : LGR → Seq → Variant → Seq → Seq → Prop}
    (hb : ∀ a g b g', WF g.rep → Maps g a b → f a g b = (g', .ok ()) →
      Body a g g' (newIn a b) (newPair g a b))
    (hf : ∀ a g b g', WF g.rep → Steady db strict force m N g → Maps g a b → f a g b = (g', .ok ()) →
      Steady db strict force m N g') {g g' : LGR} (hwf : WF g.rep) (hs : Steady db strict force m N g)
    (h : forRepertoire (fun g a => forVariants (f a) g a) g = (g', .ok ())) :
    WF g'.rep ∧ Steady db strict force m N g' := by
  obtain ⟨w, -, i, -⟩ := sweep_spec (Inv := Steady db strict force m N) (Post := fun _ _ _ => True)
    (fun _ _ _ _ _ _ => trivial) (fun a k b k' hw _ hi hm h1 => by
      have s := hb a k b k' hw hm h1
      exact ⟨s.wf, s.grow, hf a k b k' hw hi hm h1, fun u hu => (s.listed u ⟨u, hu, rfl⟩).2 hu, trivial⟩)
    hwf hs h
  exact ⟨w, i⟩

theorem steady_symmetry {g g' : LGR} (hwf : WF g.rep) (hs : Steady db strict force m N g)
    (h : addSymmetry db g = (g', .ok ())) : WF g'.rep ∧ Steady db strict force m N g' :=
  steady_sweep (fun _ _ _ _ hw hm h => symBody_spec hw hm h) (fun _ _ _ _ hw hs hm h => steady_sym hw hs hm h) hwf hs h

theorem steady_transitivity {g g' : LGR} (hwf : WF g.rep) (hs : Steady db strict force m N g)
    (h : addTransitivity db g = (g', .ok ())) : WF g'.rep ∧ Steady db strict force m N g' :=
  steady_sweep (fun _ _ _ _ hw hm h => transBody_spec hw hm h) (fun _ _ _ _ hw hs _ h => steady_trans hw hs h) hwf hs h

theorem steady_fixLoop (n : Nat) {g g' : LGR} (hwf : WF g.rep) (hs : Steady db strict force m N g)
    (h : fixLoop db n g = some (g', .ok ())) : WF g'.rep ∧ Steady db strict force m N g' := by
  induction n generalizing g with
  | zero => simp [fixLoop] at h
  | succ n ih =>
    unfold fixLoop at h
    split at h
    · simp at h
    · simp only [Option.some.injEq, Prod.mk.injEq, and_true] at h
      subst h
      exact ⟨hwf, hs⟩
    · split at h
      · simp at h
      rename_i g1 h1
      split at h
      · simp at h
      rename_i g2 h2
      obtain ⟨w1, s1⟩ := steady_symmetry hwf hs h1
      obtain ⟨w2, s2⟩ := steady_transitivity w1 s1 h2
      exact ih w2 s2 h

theorem steady_populate {n : Nat} {g g' : LGR} (hwf : WF g.rep) (hs : Steady db strict force m N g)
    (h : populate db n g = some (g', .ok ())) : Steady db strict force m N g' := by
  unfold populate at h
  split at h
  · simp at h
  rename_i g1 h1
  obtain ⟨w1, s1⟩ := steady_sweep (fun _ _ _ _ hw hm h => missBody_spec hw hm h)
    (fun _ _ _ _ hw hs _ h => steady_miss hw hs h) hwf hs h1
  split at h
  · simp at h
  · simp at h
  rename_i g2 h2
  obtain ⟨w2, s2⟩ := steady_fixLoop n w1 s1 h2
  simp only [Option.some.injEq] at h
  unfold finish at h
  split at h
  · simp at h
  · simp only [Prod.mk.injEq, and_true] at h
    subst h
    exact s2
  · exact (steady_symmetry w2 s2 h).2

/-! ## The LGR can be written -/

theorem good_steady {g : LGR} (h : Good db strict force m g) (hN : N → NoEmpty g) :
    Steady db strict force m N g := by
  refine ⟨h.refs, h.raises, fun x v hv => ?_, fun hn => ⟨hN hn, fun t => ?_⟩⟩
  · obtain ⟨c, hc, hv⟩ := hv
    have hR := h.inv.all x c hc
    obtain ⟨h1, h2, h3, h4⟩ := hR.vars v hv
    exact ⟨h1, h2, h3, h4, fun s hs => hR.xml s (List.mem_append.2 (.inr (List.mem_flatMap.2 ⟨v, hv, hs⟩)))⟩
  · rw [h.types]
    constructor
    · rintro ⟨k, c, h1, v, h2, h3⟩; exact ⟨k, v, ⟨c, h1, h2⟩, h3⟩
    · rintro ⟨k, v, ⟨c, h1, h2⟩, h3⟩; exact ⟨k, c, h1, v, h2, h3⟩

theorem fit_populate {n : Nat} {g g' : LGR} (h : Good db strict force m g)
    (hp : populate db n g = some (g', .ok ())) : Fit db strict force m g' := by
  have hwf := h.inv.wf
  obtain ⟨w, gr, hin, -⟩ := populate_spec (R := fun _ _ => True) ⟨by simp, by simp⟩ hwf (by simp) hp
  have hst := steady_populate (N := False) hwf (good_steady h (by simp)) hp
  have htag : ∀ t, tagSet g' t = tagSet g t := by intro t; unfold tagSet; rw [gr.tagCls]
  refine ⟨gr.refs.trans h.refs, gr.raise.trans h.raises, ⟨w, fun k c hc => ?_⟩, ⟨?_, ?_, ?_⟩, fun t x => ?_, ?_⟩
  · have hvars : ∀ v ∈ c.getVariants, VarOk db strict force m v := fun v hv => hst.vars k v ⟨c, hc, hv⟩
    have hcp := lookup_cp hc
    have hxml : (∀ t, t ∈ c.attrs.comment.toList ++ c.attrs.whenR.toList ++ c.attrs.notWhenR.toList ++ c.attrs.refs ++
        c.attrs.tags → xmlOk t = true) → ∀ t ∈ texts c, xmlOk t = true := by
      intro ha t ht
      unfold texts at ht
      rcases List.mem_append.1 ht with ht | ht
      · exact ha t ht
      · obtain ⟨v, hv, ht⟩ := List.mem_flatMap.1 ht
        exact (hvars v hv).xml t ht
    have hv : ∀ v ∈ c.getVariants, Allowed db strict v.cp ∧ (∀ i ∈ v.refs, (dget m.refs i).isSome = true) ∧
        Words v.refs ∧ (force = false → (v.whenR = none ∨ v.notWhenR = none) ∧ v.refs.Nodup) :=
      fun v hv => ⟨(hvars v hv).allowed, (hvars v hv).refs, (hvars v hv).words, (hvars v hv).plain⟩
    cases h0 : g.rep.lookup k with
    | some c0 =>
      obtain ⟨c1, h1, h2, h3⟩ := gr.keep k c0 h0
      rw [hc] at h1; cases h1
      have hR := h.inv.all k c0 h0
      have hcp0 : c.cp = c0.cp := hcp.trans (lookup_cp h0).symm
      exact ⟨by rw [hcp0]; exact hR.allowed, by rw [h2]; exact hR.refs, by rw [h2]; exact hR.refWords,
        by rw [h2]; exact hR.tagWords,
        hxml (by rw [h2]; exact fun t ht => hR.xml t (List.mem_append.2 (.inl ht))),
        by rw [h2, hcp0]; exact hR.plain, hv⟩
    | none =>
      obtain ⟨h2, h3⟩ := gr.fresh k c h0 hc
      have ha : Allowed db strict c.cp := by
        rcases (hin k).1 ⟨c, hc⟩ with ⟨c0, h1⟩ | ⟨a, v, ⟨d, hd, hv⟩, hvk⟩
        · rw [h0] at h1; cases h1
        · rw [hcp, ← hvk]
          exact ((h.inv.all a d hd).vars v hv).1
      have hw : Words ([] : List String) := ⟨by simp, by simp⟩
      exact ⟨ha, by rw [h2]; simp, by rw [h2]; exact hw, by rw [h2]; exact hw, hxml (by rw [h2]; simp),
        fun _ => by rw [h2]; simp, hv⟩
  · intro f l hfl
    rw [gr.ranges] at hfl
    obtain ⟨hlt, a, ha⟩ := h.intact.full f l hfl
    refine ⟨hlt, a, fun x hx hxl => ?_⟩
    obtain ⟨c', h1, h2, h3⟩ := gr.keep _ _ (ha x hx hxl)
    rw [h1]
    have hv := (lookup_charWF w h1).varWF.range (by rw [h3]; rfl)
    have hcp := lookup_cp h1
    cases c'
    simp only at h2 h3 hv hcp
    subst h2 h3 hv hcp
    rfl
  · intro k c p hc hr
    rw [gr.ranges]
    cases h0 : g.rep.lookup k with
    | some c0 =>
      obtain ⟨c1, h1, h2, h3⟩ := gr.keep k c0 h0
      rw [hc] at h1; cases h1
      exact h.intact.marked k c0 p h0 (by rw [← h3]; exact hr)
    | none => rw [(gr.fresh k c h0 hc).2] at hr; cases hr
  · rw [gr.ranges]; exact h.intact.nodup
  · rw [htag, h.tags]
    constructor
    · rintro ⟨k, c, h1, h2, h3⟩
      obtain ⟨c', h4, h5, -⟩ := gr.keep k c h1
      exact ⟨k, c', h4, by rw [h5]; exact h2, h3⟩
    · rintro ⟨k, c', h1, h2, h3⟩
      cases h0 : g.rep.lookup k with
      | some c0 =>
        obtain ⟨c1, h4, h5, -⟩ := gr.keep k c0 h0
        rw [h1] at h4; cases h4
        exact ⟨k, c0, h0, by rw [← h5]; exact h2, h3⟩
      | none =>
        rw [(gr.fresh k c' h0 h1).1] at h2
        simp at h2
  · intro t ht
    rw [htag]
    rw [gr.tagCls] at ht
    exact h.keys t ht

/-! ## What is asked -/

/-- The LGR of `g'` is that of `g` with its variant sets completed, and nothing else is changed. -/
structure Completed (g g' : Loaded) : Prop where
  md : g'.md = { g.md with nextId := 0 }
  entries : ∀ x, In g'.lgr x ↔ In g.lgr x ∨ ∃ a, Pair g.lgr a x
  kept : ∀ x c, g.lgr.rep.lookup x = some c → ∃ c', g'.lgr.rep.lookup x = some c' ∧ c'.attrs = c.attrs ∧
    c'.range = c.range
  fresh : ∀ x c', g.lgr.rep.lookup x = none → g'.lgr.rep.lookup x = some c' → c'.attrs = {} ∧ c'.range = none
  ranges : g'.lgr.rep.ranges.Perm g.lgr.rep.ranges
  pairs : ∀ x y, Pair g'.lgr x y ↔ Pair g.lgr x y ∨ (x ≠ y ∧ Relation.EqvGen (Pair g.lgr) x y)
  blocked : ∀ x v, Maps g'.lgr x v → v.type = some "blocked" ∨ ∃ u, Maps g.lgr x u ∧ u.cp = v.cp ∧ u.type = v.type
  variants : NoEmpty g.lgr → ∀ x v, Maps g.lgr x v → Kept g'.lgr x v
  refs : g'.lgr.refs.refs = g.lgr.refs.refs
  tags : ∀ t x, x ∈ tagSet g'.lgr t ↔ x ∈ tagSet g.lgr t
  tagKeys : ∀ t, (dget g'.lgr.tagCls t).isSome = (dget g.lgr.tagCls t).isSome
  types : ∀ t, t ∈ g'.lgr.types ↔ ∃ x v, Maps g'.lgr x v ∧ v.type = t
  classes : ∀ n, (dget g.rules.rs.lk.classes n).isSome = (dget g'.rules.rs.lk.classes n).isSome
  sameClass : ∀ n c, dget g.rules.rs.lk.classes n = some c → ∃ c', dget g'.rules.rs.lk.classes n = some c' ∧ C101.CEq c c'
  rules : g'.rules.rs.lk.rules = g.rules.rs.lk.rules ∧ g'.rules.rs.cache = g.rules.rs.cache
  names : g'.rules.clsNames = g.rules.clsNames ∧ g'.rules.ruleNames = g.rules.ruleNames
  actions : g'.rules.actions = g.rules.actions

/-- The LGR passes the checks of symmetry and of transitivity. -/
def Passes (db : UniDb) (g : LGR) : Prop :=
  (∃ es, (Validate.checkSymmetry db g true).2 = .ok (true, es)) ∧
  ∃ es, (Validate.checkTransitivity db g).2 = .ok (true, es)

/-! ## The same LGR, read again -/

theorem alike_maps {g g' : Loaded} (h : Alike g g') (x : Seq) (v : Variant) : Maps g'.lgr x v ↔ Maps g.lgr x v := by
  constructor
  · rintro ⟨c', hc', hv⟩
    obtain ⟨c, hc⟩ := Option.isSome_iff_exists.1 (h.only x (by rw [hc']; rfl))
    obtain ⟨d, hd, hs⟩ := h.entries x c hc
    rw [hc'] at hd; cases hd
    exact ⟨c, hc, by rw [hs.vars]; exact hv⟩
  · rintro ⟨c, hc, hv⟩
    obtain ⟨d, hd, hs⟩ := h.entries x c hc
    exact ⟨d, hd, by rw [← hs.vars]; exact hv⟩

theorem alike_in {g g' : Loaded} (h : Alike g g') (x : Seq) : In g'.lgr x ↔ In g.lgr x := by
  constructor
  · rintro ⟨c', hc'⟩
    exact Option.isSome_iff_exists.1 (h.only x (by rw [hc']; rfl))
  · rintro ⟨c, hc⟩
    obtain ⟨d, hd, -⟩ := h.entries x c hc
    exact ⟨d, hd⟩

theorem alike_pair {g g' : Loaded} (h : Alike g g') (x y : Seq) : Pair g'.lgr x y ↔ Pair g.lgr x y := by
  unfold Pair
  simp only [alike_maps h]

theorem passes_of {g : LGR} (hwf : WF g.rep) (hc : ∀ x y, Pair g x y → In g y) (hs : ∀ x y, Pair g x y → Pair g y x)
    (ht : ∀ x y z, Pair g x y → Pair g y z → z ≠ x → Pair g x z) (hi : ∀ a b, Maps g a b → IdnaOk db g b.cp) :
    Passes db g := by
  obtain ⟨⟨s, e1⟩, r1⟩ := (check_symmetry_returns_iff db g hwf true).2 (fun a b hm _ => hi a b hm)
  obtain ⟨⟨t, e2⟩, r2⟩ := (C27.check_transitivity_returns_iff db g hwf).2 hi
  refine ⟨⟨e1, ?_⟩, e2, ?_⟩
  · have : s = true := by
      rw [check_symmetry_exact db g hwf s e1 r1]
      intro a b hm
      exact ⟨hc a b.cp ⟨b, hm, rfl⟩, hs a b.cp ⟨b, hm, rfl⟩⟩
    rw [r1, this]
  · have : t = true := by
      rw [C27.check_transitivity_exact db g hwf t e2 r2]
      intro a b hm
      exact ⟨hc a b.cp ⟨b, hm, rfl⟩, fun c hcm hca => ht a b.cp c.cp ⟨b, hm, rfl⟩ ⟨c, hcm, rfl⟩ hca⟩
    rw [r2, this]

/-- What was read from a document. -/
structure Source (R : Reader) (d : Doc) (g : Loaded) : Prop where
  md : C104.MGood R.x R.force g.md
  lgr : Good R.db R.strict R.force (managerOf g.md) g.lgr
  rules : ∃ t, RulesXml.parseRules R.parser (newRules g.lgr, {}) (d.rules.getD []) = ((g.rules, t), .ok ()) ∧ g.ids = t.nextId

theorem source {R : Reader} (hx : C99.Sound R.x) (hs : Safe R.db R.strict R.force) {d : Doc} (hd : DocOk R d)
    {cs : Rfc7940.Results} {g : Loaded} (h : (parseDoc R cs d).2 = .ok (some g)) : Source R d g := by
  unfold parseDoc at h
  cases hms : d.metaE with
  | none =>
    rw [hms] at h
    dsimp only at h
    unfold orphan at h
    split at h
    · cases h
    · split at h
      · cases h
      · cases h
  | some ms =>
  rw [hms] at h
  dsimp only at h
  cases hpm : MetaXml.parseMeta R.x R.force cs ms with
  | mk ma o =>
  rw [hpm] at h
  cases o with
  | error e => simp at h
  | ok u =>
  dsimp only at h
  cases hpd : parseData R.db R.force { lgr := newLgr R ma.md, checks := ma.checks } d.data with
  | mk p o =>
  rw [hpd] at h
  cases o with
  | error e => simp at h
  | ok u =>
  dsimp only at h
  cases hpr : RulesXml.parseRules R.parser (newRules p.lgr, {}) (d.rules.getD []) with
  | mk rt o =>
  obtain ⟨r, t⟩ := rt
  rw [hpr] at h
  cases o with
  | error e => simp at h
  | ok u =>
  simp only [Except.ok.injEq, Option.some.injEq] at h
  subst h
  have hM := mgood_meta hx (hd.metaOk ms hms) hpm
  exact ⟨hM, good_data (fun hf => by rw [manager_get]; exact hM.ids hf) hs hd.dataOk hpd, t, hpr, rfl⟩

/-- Populating what was read from a document, writing it and reading it again. -/
theorem populated_reread {R : Reader} (hx : C99.Sound R.x) (hs : Safe R.db R.strict R.force) {d : Doc} (hd : DocOk R d)
    {g : Loaded} (h : Source R d g) {n : Nat} {l : LGR} (hp : populate R.db n g.lgr = some (l, .ok ()))
    (cs' : Rfc7940.Results) :
    ∃ d' cs2 g', serializeDoc { g with lgr := l } = .ok d' ∧ parseDoc R cs' d' = (cs2, .ok (some g')) ∧
      Alike { g with lgr := { l with types := g'.lgr.types } } g' ∧ Completed g g' ∧ Passes R.db g'.lgr ∧ serializeDoc g' = .ok d' := by
  obtain ⟨t, hpr, -⟩ := h.rules
  have hwf := h.lgr.inv.wf
  obtain ⟨w, gr, -, -, hc, hsym, htr, -⟩ := populate_spec (R := fun _ _ => True) ⟨by simp, by simp⟩ hwf (by simp) hp
  obtain ⟨hin, hpairs⟩ := C29.populate_exact_partial R.db n g.lgr l hwf hp
  have hrn : newRules g.lgr = newRules l := by unfold newRules tagClasses; rw [gr.tagCls]
  rw [hrn] at hpr
  obtain ⟨d', cs2, g', w1, w2, -, w3, w4, w5, w6, -⟩ := fit_reread R hx hs h.md (fit_populate h.lgr hp) hd.classes hpr
    (ids := g.ids) cs'
  have hm : ∀ x v, Maps g'.lgr x v ↔ Maps l x v := alike_maps w3
  have hi : ∀ x, In g'.lgr x ↔ In l x := alike_in w3
  have hpr' : ∀ x y, Pair g'.lgr x y ↔ Pair l x y := alike_pair w3
  refine ⟨d', cs2, g', w1, w2, w3, ?_, ?_, w6⟩
  · exact {
      md := w3.md
      entries := fun x => (hi x).trans (hin x)
      kept := fun x c hc => by
        obtain ⟨c1, h1, h2, h3⟩ := gr.keep x c hc
        obtain ⟨c2, h4, h5⟩ := w3.entries x c1 h1
        exact ⟨c2, h4, h5.attrs.symm.trans h2, h5.range.symm.trans h3⟩
      fresh := fun x c' h0 hc' => by
        obtain ⟨c1, h1⟩ := (hi x).1 ⟨c', hc'⟩
        obtain ⟨c2, h4, h5⟩ := w3.entries x c1 h1
        rw [hc'] at h4; cases h4
        rw [← h5.attrs, ← h5.range]
        exact gr.fresh x c1 h0 h1
      ranges := by
        have := w3.ranges
        dsimp only at this
        rwa [gr.ranges] at this
      pairs := fun x y => (hpr' x y).trans (hpairs x y)
      blocked := fun x v hv => gr.types x v ((hm x v).1 hv)
      variants := fun hne x v hv => by
        have := (gr.vars hne).2 x v hv
        unfold Kept at this ⊢
        simp only [hm]
        exact this
      refs := by
        have := w3.refs
        dsimp only at this
        rwa [gr.refs] at this
      tags := fun t x => by
        have := w3.tags t x
        unfold tagSet at this ⊢
        dsimp only at this
        rwa [gr.tagCls] at this
      tagKeys := fun t => by
        have := w3.tagKeys t
        dsimp only at this
        rwa [gr.tagCls] at this
      types := fun t => by
        rw [w4 t]
        simp only [hm]
        constructor
        · rintro ⟨k, c, h1, v, h2, h3⟩; exact ⟨k, v, ⟨c, h1, h2⟩, h3⟩
        · rintro ⟨k, v, ⟨c, h1, h2⟩, h3⟩; exact ⟨k, c, h1, v, h2, h3⟩
      classes := w3.classes, sameClass := w3.sameClass, rules := w3.rules, names := w3.names, actions := w3.actions }
  · refine passes_of w5 (fun x y hxy => (hi y).2 (hc x y ((hpr' x y).1 hxy)))
      (fun x y hxy => (hpr' y x).2 (hsym x y ((hpr' x y).1 hxy)))
      (fun x y z h1 h2 h3 => (hpr' x z).2 (htr x y z ((hpr' x y).1 h1) ((hpr' y z).1 h2) h3)) ?_
    intro a b hab
    have hst := steady_populate (N := False) hwf (good_steady h.lgr (by simp)) hp
    have := (hst.vars a b ((hm a b).1 hab)).allowed
    have hra : g'.lgr.raiseInvalid = R.strict := by
      have := w3.raises
      dsimp only at this
      rw [this, gr.raise, h.lgr.raises]
    unfold IdnaOk
    rw [hra]
    exact this

end Lgr.Props.C130

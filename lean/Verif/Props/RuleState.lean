import Verif.Props.Rules

/-!
# Rules of an LGR: totality, and the cache of patterns
-/

namespace Lgr.C65
open Lgr Matcher

variable {db : String → Except Err CpSet} {lk : Lookups}

/-! ## More depth does not change results -/

/-- Not an overflow of the stack. -/
def Done {α : Type} (r : Except Err α) : Prop := r ≠ .error .recursionError

theorem mapM_stable {α β : Type} {f g : α → Except Err β} {l : List α}
    (h : ∀ a ∈ l, Done (f a) → g a = f a) (hd : Done (l.mapM f)) : l.mapM g = l.mapM f := by
  induction l with
  | nil => rfl
  | cons a l ih =>
    rw [List.mapM_cons] at hd
    cases hf : f a with
    | error e =>
      have hde : Done (f a) := by
        intro hc
        rw [hc] at hd
        exact hd rfl
      have hg := h a (by simp) hde
      rw [List.mapM_cons, List.mapM_cons, hg, hf]
      rfl
    | ok b =>
      have hde : Done (f a) := by rw [hf]; intro hc; cases hc
      have hg := h a (by simp) hde
      have hd' : Done (l.mapM f) := by
        intro hc
        rw [hf] at hd
        simp only [bind, Except.bind, hc] at hd
        exact hd rfl
      rw [List.mapM_cons, List.mapM_cons, hg, ih (fun a ha => h a (by simp [ha])) hd']

theorem getSet_stable {cl : List (String × Cls)} : ∀ fuel (k : Cls), Done (Cls.getSet db cl fuel k) →
    Cls.getSet db cl (fuel + 1) k = Cls.getSet db cl fuel k := by
  intro fuel
  induction fuel with
  | zero => intro k h; exact absurd (by simp [Cls.getSet]) h
  | succ fuel ih =>
    intro k h
    cases k with
    | base b =>
      rw [Cls.getSet] at h ⊢
      rw [Cls.getSet]
      cases hb : b.byRef with
      | some n =>
        simp only [hb] at h ⊢
        cases hd : dget cl n with
        | none => rfl
        | some c => simp only [hd] at h ⊢; exact ih _ h
      | none =>
        simp only [hb] at h ⊢
        cases ht : b.fromTag with
        | some t =>
          simp only [ht] at h ⊢
          cases hd : dget cl (Cls.tagPrefix ++ t) with
          | none => rfl
          | some c => simp only [hd] at h ⊢; exact ih _ h
        | none => rfl
    | comb n op cs =>
      have two : ∀ (op : Comb), op ≠ .complement → op ≠ .union → Done (Cls.getSet db cl (fuel + 1) (.comb n op cs)) →
          Cls.getSet db cl (fuel + 1 + 1) (.comb n op cs) = Cls.getSet db cl (fuel + 1) (.comb n op cs) := by
        intro op h1 h2 h
        cases cs with
        | nil => cases op <;> simp [Cls.getSet] at h1 h2 ⊢
        | cons c cs =>
          have hc : Done (Cls.getSet db cl fuel c) := by
            intro hc
            apply h
            cases op <;> simp [Cls.getSet, hc] at h1 h2 ⊢
          have e1 := ih c hc
          cases hcc : Cls.getSet db cl fuel c with
          | error e => cases op <;> simp [Cls.getSet, e1, hcc] at h1 h2 ⊢
          | ok s1 =>
            cases cs with
            | nil => cases op <;> simp [Cls.getSet, e1, hcc] at h1 h2 ⊢
            | cons d cs =>
              have hd : Done (Cls.getSet db cl fuel d) := by
                intro hd
                apply h
                cases op <;> simp [Cls.getSet, hcc, hd] at h1 h2 ⊢
              have e2 := ih d hd
              cases op <;> simp [Cls.getSet, e1, e2] at h1 h2 ⊢
      cases op with
      | complement =>
        cases cs with
        | nil => simp [Cls.getSet]
        | cons c cs =>
          have hc : Done (Cls.getSet db cl fuel c) := by
            intro hc
            apply h
            simp [Cls.getSet, hc]
          simp [Cls.getSet, ih c hc]
      | union =>
        rw [Cls.getSet] at h ⊢
        rw [Cls.getSet]
        have hc : Done (cs.mapM (Cls.getSet db cl fuel)) := by
          intro hc; rw [hc] at h; exact h rfl
        rw [mapM_stable (fun a _ => ih a) hc]
      | intersection => exact two _ (by simp) (by simp) h
      | difference => exact two _ (by simp) (by simp) h
      | symDiff => exact two _ (by simp) (by simp) h

theorem pattern_stable : ∀ fuel beh (m : Matcher), Done (pattern db lk fuel beh m) →
    pattern db lk (fuel + 1) beh m = pattern db lk fuel beh m := by
  intro fuel
  induction fuel with
  | zero => intro beh m h; exact absurd (by simp [pattern]) h
  | succ fuel ih =>
    intro beh m h
    cases m with
    | start => rfl
    | fin => rfl
    | anchor => rfl
    | any c => rfl
    | char cps c => rfl
    | ahead ms =>
      rw [pattern] at h ⊢
      rw [pattern]
      have hc : Done (ms.mapM (pattern db lk fuel false)) := by
        intro hc; rw [hc] at h; exact h rfl
      rw [mapM_stable (fun a _ => ih false a) hc]
    | behind ms =>
      rw [pattern] at h ⊢
      rw [pattern]
      have hc : Done (ms.mapM (pattern db lk fuel true)) := by
        intro hc; rw [hc] at h; exact h rfl
      rw [mapM_stable (fun a _ => ih true a) hc]
    | choice ms c =>
      rw [pattern] at h ⊢
      rw [pattern]
      have hc : Done (ms.mapM (pattern db lk fuel beh)) := by
        intro hc; rw [hc] at h; exact h rfl
      rw [mapM_stable (fun a _ => ih beh a) hc]
    | cls k c =>
      rw [pattern] at h ⊢
      rw [pattern]
      have hc : Done (Cls.getSet db lk.classes fuel k) := by
        intro hc; rw [classPattern, hc] at h; exact h rfl
      rw [classPattern, classPattern, getSet_stable fuel k hc]
    | rule id nm br ms c =>
      cases br with
      | some n =>
        rw [pattern.eq_def] at h ⊢
        simp only at h ⊢
        rw [pattern.eq_def _ _ (fuel + 1)]
        simp only
        cases hd : dget lk.rules n with
        | none => rfl
        | some m =>
          simp only [hd] at h ⊢
          have hc : Done (pattern db lk fuel beh m) := by
            intro hc; rw [hc] at h; exact h rfl
          rw [ih beh m hc]
      | none =>
        rw [pattern.eq_def] at h ⊢
        simp only at h ⊢
        rw [pattern.eq_def _ _ (fuel + 1)]
        simp only
        have hc : Done (ms.mapM (pattern db lk fuel beh)) := by
          intro hc; rw [hc] at h; exact h rfl
        rw [mapM_stable (fun a _ => ih beh a) hc]

theorem pattern_stable_le {f f' : Nat} (hle : f ≤ f') {beh : Bool} {m : Matcher}
    (h : Done (pattern db lk f beh m)) : pattern db lk f' beh m = pattern db lk f beh m := by
  induction hle with
  | refl => rfl
  | step _ ih => rw [pattern_stable _ _ _ (by rw [ih]; exact h), ih]

theorem patterns_stable_le {f f' : Nat} (hle : f ≤ f') {beh : Bool} {ms : List Matcher}
    (h : Done (ms.mapM (pattern db lk f beh))) :
    ms.mapM (pattern db lk f' beh) = ms.mapM (pattern db lk f beh) :=
  mapM_stable (fun _ _ hd => pattern_stable_le hle hd) h

/-- The result does not depend on the depth allowed. -/
theorem pattern_unique {f f' : Nat} {beh : Bool} {m : Matcher} (h : Done (pattern db lk f beh m))
    (h' : Done (pattern db lk f' beh m)) : pattern db lk f beh m = pattern db lk f' beh m := by
  rw [← pattern_stable_le (Nat.le_max_left f f') h, ← pattern_stable_le (Nat.le_max_right f f') h']

/-! ## The cache -/

mutual

/-- Rules in the matcher are those with their identities. -/
def Own (obj : Nat → Option String × List Matcher) : Matcher → Prop
  | .ahead ms => OwnL obj ms
  | .behind ms => OwnL obj ms
  | .choice ms _ => OwnL obj ms
  | .rule id _ br ms _ => obj id = (br, ms) ∧ OwnL obj ms
  | _ => True

/-- The same for lists. -/
def OwnL (obj : Nat → Option String × List Matcher) : List Matcher → Prop
  | [] => True
  | m :: ms => Own obj m ∧ OwnL obj ms

end

/-- What is in the cache is what would be calculated. -/
def CacheOK (db : String → Except Err CpSet) (lk : Lookups) (obj : Nat → Option String × List Matcher)
    (κ : Cache) : Prop :=
  ∀ id beh r, dget κ (id, beh) = some r →
    (obj id).1 = none ∧ ∃ f rs, (obj id).2.mapM (pattern db lk f beh) = .ok rs ∧ r = .seqs rs

/-- The result of a call with the cache agrees with that of one without. -/
def Same {α : Type} (r : Except Err α) (calc' : Nat → Except Err α) (fuel : Nat) : Prop :=
  (Done r → ∃ f, calc' f = r) ∧ (Done (calc' fuel) → Done r)

theorem mapC_same {obj : Nat → Option String × List Matcher} {fuel : Nat} {beh : Bool}
    (ih : ∀ (m : Matcher) (κ : Cache), Own obj m → CacheOK db lk obj κ →
      CacheOK db lk obj (patternC db lk fuel beh m κ).1 ∧
      Same (patternC db lk fuel beh m κ).2 (fun f => pattern db lk f beh m) fuel) :
    ∀ (ms : List Matcher) (κ : Cache), OwnL obj ms → CacheOK db lk obj κ →
      CacheOK db lk obj (mapC (patternC db lk fuel beh) ms κ).1 ∧
      Same (mapC (patternC db lk fuel beh) ms κ).2 (fun f => ms.mapM (pattern db lk f beh)) fuel := by
  intro ms
  induction ms with
  | nil =>
    intro κ _ hκ
    refine ⟨hκ, fun _ => ⟨0, rfl⟩, fun _ h => by cases h⟩
  | cons m ms ihms =>
    intro κ ho hκ
    obtain ⟨h1, h2, h3⟩ := ih m κ ho.1 hκ
    rcases hm : patternC db lk fuel beh m κ with ⟨κ1, o⟩
    rw [hm] at h1 h2 h3
    simp only at h1 h2 h3
    rw [mapC, hm]
    cases o with
    | error e =>
      refine ⟨h1, ?_, ?_⟩
      · intro hd
        have hd' : Done (Except.error e : Except Err Re) := by
          intro hc; apply hd; cases hc; rfl
        obtain ⟨f, hf⟩ := h2 hd'
        refine ⟨f, ?_⟩
        simp only [List.mapM_cons, hf]
        rfl
      · intro hd hc
        cases hc
        refine h3 ?_ rfl
        intro hc
        simp only [List.mapM_cons, hc] at hd
        exact hd rfl
    | ok r =>
      obtain ⟨g1, g2, g3⟩ := ihms κ1 ho.2 h1
      rcases hms : mapC (patternC db lk fuel beh) ms κ1 with ⟨κ2, o2⟩
      rw [hms] at g1 g2 g3
      simp only at g1 g2 g3
      simp only [hms]
      obtain ⟨f, hf⟩ := h2 (by intro hc; cases hc)
      have hrest : Done ((m :: ms).mapM (pattern db lk fuel beh)) → Done o2 := by
        intro hd
        apply g3
        intro hc
        rw [List.mapM_cons] at hd
        have hpd : Done (pattern db lk fuel beh m) := by
          intro hc'; rw [hc'] at hd; exact hd rfl
        have : pattern db lk fuel beh m = .ok r := by
          rw [pattern_unique hpd (f' := f) (by rw [hf]; intro hc; cases hc), hf]
        rw [this] at hd
        simp only [bind, Except.bind, hc] at hd
        exact hd rfl
      cases o2 with
      | error e =>
        refine ⟨g1, ?_, ?_⟩
        · intro hd
          have hd' : Done (Except.error e : Except Err (List Re)) := by
            intro hc; apply hd; cases hc; rfl
          obtain ⟨f2, hf2⟩ := g2 hd'
          refine ⟨max f f2, ?_⟩
          have e1 := pattern_stable_le (Nat.le_max_left f f2) (db := db) (lk := lk) (beh := beh) (m := m)
            (by rw [hf]; intro hc; cases hc)
          have e2 := patterns_stable_le (Nat.le_max_right f f2) (db := db) (lk := lk) (beh := beh) (ms := ms)
            (by rw [hf2]; exact hd')
          simp only [List.mapM_cons, e1, e2, hf, hf2]
          rfl
        · intro hd; exact hrest hd
      | ok rs =>
        refine ⟨g1, ?_, ?_⟩
        · intro hd
          obtain ⟨f2, hf2⟩ := g2 (by intro hc; cases hc)
          refine ⟨max f f2, ?_⟩
          have e1 := pattern_stable_le (Nat.le_max_left f f2) (db := db) (lk := lk) (beh := beh) (m := m)
            (by rw [hf]; intro hc; cases hc)
          have e2 := patterns_stable_le (Nat.le_max_right f f2) (db := db) (lk := lk) (beh := beh) (ms := ms)
            (by rw [hf2]; intro hc; cases hc)
          simp only [List.mapM_cons, e1, e2, hf, hf2]
          rfl
        · intro _ hc; cases hc

theorem ownL_iff {obj : Nat → Option String × List Matcher} {ms : List Matcher} :
    OwnL obj ms ↔ ∀ m ∈ ms, Own obj m := by
  induction ms with
  | nil => simp [OwnL]
  | cons m ms ih => simp [OwnL, ih]

/-- A correct cache stays correct and does not change results. -/
theorem patternC_same {obj : Nat → Option String × List Matcher}
    (hlk : ∀ n m, dget lk.rules n = some m → Own obj m) :
    ∀ (fuel : Nat) (beh : Bool) (m : Matcher) (κ : Cache), Own obj m → CacheOK db lk obj κ →
      CacheOK db lk obj (patternC db lk fuel beh m κ).1 ∧
      Same (patternC db lk fuel beh m κ).2 (fun f => pattern db lk f beh m) fuel := by
  intro fuel
  induction fuel with
  | zero =>
    intro beh m κ _ hκ
    rw [patternC]
    exact ⟨hκ, fun h => absurd rfl h, fun h => absurd (by simp [pattern]) h⟩
  | succ fuel ih =>
    intro beh m κ ho hκ
    -- a matcher with a list of children
    have lists : ∀ (beh' : Bool) (ms : List Matcher) (F : List Re → Re) (m : Matcher),
        OwnL obj ms →
        (∀ f, pattern db lk (f + 1) beh m = match ms.mapM (pattern db lk f beh') with
          | .error e => .error e
          | .ok rs => .ok (F rs)) →
        (patternC db lk (fuel + 1) beh m κ = match mapC (patternC db lk fuel beh') ms κ with
          | (κ, .error e) => (κ, .error e)
          | (κ, .ok rs) => (κ, .ok (F rs))) →
        CacheOK db lk obj (patternC db lk (fuel + 1) beh m κ).1 ∧
          Same (patternC db lk (fuel + 1) beh m κ).2 (fun f => pattern db lk f beh m) (fuel + 1) := by
      intro beh' ms F m hms hp hpC
      obtain ⟨h1, h2, h3⟩ := mapC_same (beh := beh') (fun m κ => ih beh' m κ) ms κ hms hκ
      rw [hpC]
      rcases hm : mapC (patternC db lk fuel beh') ms κ with ⟨κ1, o⟩
      rw [hm] at h1 h2 h3
      simp only at h1 h2 h3
      cases o with
      | error e =>
        refine ⟨h1, ?_, ?_⟩
        · intro hd
          obtain ⟨f, hf⟩ := h2 (by intro hc; cases hc; exact hd rfl)
          exact ⟨f + 1, by simp only [hp, hf]⟩
        · intro hd hc
          cases hc
          refine h3 ?_ rfl
          intro hc
          simp only [hp, hc] at hd
          exact hd rfl
      | ok rs =>
        refine ⟨h1, ?_, ?_⟩
        · intro hd
          obtain ⟨f, hf⟩ := h2 (by intro hc; cases hc)
          exact ⟨f + 1, by simp only [hp, hf]⟩
        · intro _ hc; cases hc
    have base : ∀ (m : Matcher) (o : Except Err Re), patternC db lk (fuel + 1) beh m κ = (κ, o) →
        pattern db lk (fuel + 1) beh m = o →
        CacheOK db lk obj (patternC db lk (fuel + 1) beh m κ).1 ∧
          Same (patternC db lk (fuel + 1) beh m κ).2 (fun f => pattern db lk f beh m) (fuel + 1) := by
      intro m o h1 h2
      rw [h1]
      exact ⟨hκ, fun _ => ⟨fuel + 1, h2⟩, fun hd => by simpa only [h2] using hd⟩
    cases m with
    | start => exact base _ _ (by rw [patternC]) (by rw [pattern])
    | fin => exact base _ _ (by rw [patternC]) (by rw [pattern])
    | anchor => exact base _ _ (by rw [patternC]) (by rw [pattern])
    | any c => exact base _ _ (by rw [patternC]) (by rw [pattern])
    | char cps c => exact base _ _ (by rw [patternC]) (by rw [pattern])
    | ahead ms =>
      exact lists false ms (fun rs => .ahead (.seqs rs)) _ (by simpa [Own] using ho)
        (fun f => by rw [pattern]; cases ms.mapM (pattern db lk f false) <;> rfl)
        (by rw [patternC]; rcases mapC (patternC db lk fuel false) ms κ with ⟨_, _ | _⟩ <;> rfl)
    | behind ms =>
      exact lists true ms (fun rs => .behind (.seqs rs)) _ (by simpa [Own] using ho)
        (fun f => by rw [pattern]; cases ms.mapM (pattern db lk f true) <;> rfl)
        (by rw [patternC]; rcases mapC (patternC db lk fuel true) ms κ with ⟨_, _ | _⟩ <;> rfl)
    | choice ms c =>
      exact lists beh ms (fun rs => withCount beh c (.group (.alts rs))) _ (by simpa [Own] using ho)
        (fun f => by rw [pattern]; cases ms.mapM (pattern db lk f beh) <;> rfl)
        (by rw [patternC]; rcases mapC (patternC db lk fuel beh) ms κ with ⟨_, _ | _⟩ <;> rfl)
    | cls k c =>
      refine base _ (pattern db lk (fuel + 1) beh (.cls k c)) ?_ rfl
      rw [patternC, pattern]
      cases classPattern db lk fuel k <;> rfl
    | rule id nm br ms c =>
      rw [Own] at ho
      cases hd : dget κ (id, beh) with
      | some r =>
        obtain ⟨h1, f, rs, h2, h3⟩ := hκ id beh r hd
        rw [ho.1] at h1 h2
        simp only at h1 h2
        subst h1
        have hC : patternC db lk (fuel + 1) beh (.rule id nm none ms c) κ = (κ, .ok (withCount beh c r)) := by
          rw [patternC.eq_def]
          simp only [hd]
        rw [hC]
        refine ⟨hκ, fun _ => ⟨f + 1, ?_⟩, fun _ hc => by cases hc⟩
        simp only
        rw [pattern.eq_def]
        simp only [h2, h3]
      | none =>
        cases br with
        | some n =>
          cases hr : dget lk.rules n with
          | none =>
            refine base _ (.error (.ruleError n)) ?_ ?_
            · rw [patternC.eq_def]; simp only [hd, hr]
            · rw [pattern.eq_def]; simp only [hr]
          | some m =>
            obtain ⟨h1, h2, h3⟩ := ih beh m κ (hlk n m hr) hκ
            rcases hm : patternC db lk fuel beh m κ with ⟨κ1, o⟩
            rw [hm] at h1 h2 h3
            simp only at h1 h2 h3
            rw [patternC.eq_def]
            simp only [hd, hr, hm]
            cases o with
            | error e =>
              refine ⟨h1, ?_, ?_⟩
              · intro hdn
                obtain ⟨f, hf⟩ := h2 hdn
                refine ⟨f + 1, ?_⟩
                simp only
                rw [pattern.eq_def]
                simp only [hr, hf]
              · intro hdn hc
                cases hc
                refine h3 ?_ rfl
                intro hc
                simp only at hdn
                rw [pattern.eq_def] at hdn
                simp only [hr, hc] at hdn
                exact hdn rfl
            | ok r =>
              refine ⟨h1, ?_, fun _ hc => by cases hc⟩
              intro _
              obtain ⟨f, hf⟩ := h2 (by intro hc; cases hc)
              refine ⟨f + 1, ?_⟩
              simp only
              rw [pattern.eq_def]
              simp only [hr, hf]
        | none =>
          obtain ⟨h1, h2, h3⟩ := mapC_same (beh := beh) (fun m κ => ih beh m κ) ms κ ho.2 hκ
          rcases hm : mapC (patternC db lk fuel beh) ms κ with ⟨κ1, o⟩
          rw [hm] at h1 h2 h3
          simp only at h1 h2 h3
          rw [patternC.eq_def]
          simp only [hd, hm]
          cases o with
          | error e =>
            refine ⟨h1, ?_, ?_⟩
            · intro hdn
              obtain ⟨f, hf⟩ := h2 (by intro hc; cases hc; exact hdn rfl)
              refine ⟨f + 1, ?_⟩
              simp only
              rw [pattern.eq_def]
              simp only [hf]
            · intro hdn hc
              cases hc
              refine h3 ?_ rfl
              intro hc
              simp only at hdn
              rw [pattern.eq_def] at hdn
              simp only [hc] at hdn
              exact hdn rfl
          | ok rs =>
            obtain ⟨f, hf⟩ := h2 (by intro hc; cases hc)
            refine ⟨?_, ?_, fun _ hc => by cases hc⟩
            · intro id' beh' r hr
              rw [dget_dset] at hr
              split at hr
              · rename_i he
                cases he
                cases hr
                rw [ho.1]
                exact ⟨rfl, f, rs, hf, rfl⟩
              · exact h1 id' beh' r hr
            · intro _
              refine ⟨f + 1, ?_⟩
              simp only
              rw [pattern.eq_def]
              simp only [hf]

/-! ## New definitions -/

/-- Definitions were added, for names that had none; tags are as before. -/
structure Grows (lk lk' : Lookups) : Prop where
  rules : ∀ n m, dget lk.rules n = some m → dget lk'.rules n = some m
  classes : ∀ n c, dget lk.classes n = some c → dget lk'.classes n = some c
  tags : ∀ t, dget lk.classes (Cls.tagPrefix ++ t) = none → dget lk'.classes (Cls.tagPrefix ++ t) = none

theorem mapM_imp {α β : Type} {f g : α → Except Err β} {l : List α} {r : List β}
    (h : ∀ a ∈ l, ∀ b, f a = .ok b → g a = .ok b) (hr : l.mapM f = .ok r) : l.mapM g = .ok r := by
  rw [C42.mapM_ok] at hr ⊢
  induction hr with
  | nil => exact .nil
  | @cons a b l r h1 _ ih =>
    exact .cons (h a (by simp) b h1) (ih (fun a ha => h a (by simp [ha])))

theorem getSet_grows {lk lk' : Lookups} (hg : Grows lk lk') : ∀ fuel (k : Cls) s,
    Cls.getSet db lk.classes fuel k = .ok s → Cls.getSet db lk'.classes fuel k = .ok s := by
  intro fuel
  induction fuel with
  | zero => intro k s h; simp [Cls.getSet] at h
  | succ fuel ih =>
    intro k s h
    cases k with
    | base b =>
      rw [Cls.getSet] at h ⊢
      cases hb : b.byRef with
      | some n =>
        simp only [hb] at h ⊢
        cases hd : dget lk.classes n with
        | none => simp [hd] at h
        | some c => simp only [hd, hg.classes n c hd] at h ⊢; exact ih _ _ h
      | none =>
        simp only [hb] at h ⊢
        cases ht : b.fromTag with
        | some t =>
          simp only [ht] at h ⊢
          cases hd : dget lk.classes (Cls.tagPrefix ++ t) with
          | none => simp only [hd, hg.tags t hd] at h ⊢; exact h
          | some c => simp only [hd, hg.classes _ c hd] at h ⊢; exact ih _ _ h
        | none => simpa [ht] using h
    | comb n op cs =>
      have two : ∀ (op : Comb), op ≠ .complement → op ≠ .union →
          Cls.getSet db lk.classes (fuel + 1) (.comb n op cs) = .ok s →
          Cls.getSet db lk'.classes (fuel + 1) (.comb n op cs) = .ok s := by
        intro op h1 h2 h
        cases cs with
        | nil => cases op <;> simp [Cls.getSet] at h h1 h2
        | cons c cs =>
          cases hc : Cls.getSet db lk.classes fuel c with
          | error e => cases op <;> simp [Cls.getSet, hc] at h h1 h2
          | ok s1 =>
            cases cs with
            | nil => cases op <;> simp [Cls.getSet, hc] at h h1 h2
            | cons d cs =>
              cases hd : Cls.getSet db lk.classes fuel d with
              | error e => cases op <;> simp [Cls.getSet, hc, hd] at h h1 h2
              | ok s2 =>
                have e1 := ih _ _ hc
                have e2 := ih _ _ hd
                cases op <;> simp [Cls.getSet, hc, hd, e1, e2] at h h1 h2 ⊢ <;> exact h
      cases op with
      | complement =>
        cases cs with
        | nil => simp [Cls.getSet] at h
        | cons c cs =>
          cases hc : Cls.getSet db lk.classes fuel c with
          | error e => simp [Cls.getSet, hc] at h
          | ok s1 =>
            have e1 := ih _ _ hc
            simp [Cls.getSet, hc, e1] at h ⊢
            exact h
      | union =>
        cases hc : cs.mapM (Cls.getSet db lk.classes fuel) with
        | error e => simp [Cls.getSet, hc] at h
        | ok ss =>
          have e1 := mapM_imp (fun a _ b hb => ih a b hb) hc
          simp [Cls.getSet, hc, e1] at h ⊢
          exact h
      | intersection => exact two _ (by simp) (by simp) h
      | difference => exact two _ (by simp) (by simp) h
      | symDiff => exact two _ (by simp) (by simp) h

theorem pattern_grows {lk lk' : Lookups} (hg : Grows lk lk') : ∀ fuel beh (m : Matcher) r,
    pattern db lk fuel beh m = .ok r → pattern db lk' fuel beh m = .ok r := by
  intro fuel
  induction fuel with
  | zero => intro beh m r h; simp [pattern] at h
  | succ fuel ih =>
    intro beh m r h
    cases m with
    | start => exact h
    | fin => exact h
    | anchor => exact h
    | any c => exact h
    | char cps c => exact h
    | ahead ms =>
      rw [pattern] at h ⊢
      cases hms : ms.mapM (pattern db lk fuel false) with
      | error e => simp [hms] at h
      | ok rs =>
        rw [mapM_imp (fun a _ b hb => ih false a b hb) hms]
        simpa [hms] using h
    | behind ms =>
      rw [pattern] at h ⊢
      cases hms : ms.mapM (pattern db lk fuel true) with
      | error e => simp [hms] at h
      | ok rs =>
        rw [mapM_imp (fun a _ b hb => ih true a b hb) hms]
        simpa [hms] using h
    | choice ms c =>
      rw [pattern] at h ⊢
      cases hms : ms.mapM (pattern db lk fuel beh) with
      | error e => simp [hms] at h
      | ok rs =>
        rw [mapM_imp (fun a _ b hb => ih beh a b hb) hms]
        simpa [hms] using h
    | cls k c =>
      rw [pattern, classPattern] at h ⊢
      cases hs : Cls.getSet db lk.classes fuel k with
      | error e => simp [hs] at h
      | ok s =>
        rw [getSet_grows hg fuel k s hs]
        simpa [hs] using h
    | rule id nm br ms c =>
      cases br with
      | some n =>
        rw [pattern.eq_def] at h ⊢
        simp only at h ⊢
        cases hd : dget lk.rules n with
        | none => simp [hd] at h
        | some m =>
          simp only [hd, hg.rules n m hd] at h ⊢
          cases hp : pattern db lk fuel beh m with
          | error e => simp [hp] at h
          | ok r' =>
            rw [ih beh m r' hp]
            simpa [hp] using h
      | none =>
        rw [pattern.eq_def] at h ⊢
        simp only at h ⊢
        cases hms : ms.mapM (pattern db lk fuel beh) with
        | error e => simp [hms] at h
        | ok rs =>
          rw [mapM_imp (fun a _ b hb => ih beh a b hb) hms]
          simpa [hms] using h

theorem cacheOK_grows {lk lk' : Lookups} (hg : Grows lk lk') {obj : Nat → Option String × List Matcher} {κ : Cache}
    (h : CacheOK db lk obj κ) : CacheOK db lk' obj κ := by
  intro id beh r hr
  obtain ⟨h1, f, rs, h2, h3⟩ := h id beh r hr
  exact ⟨h1, f, rs, mapM_imp (fun a _ b hb => pattern_grows hg f beh a b hb) h2, h3⟩

/-! ## Histories -/

/-- Calls that read or define rules. -/
inductive Op where
  | rule (m : Matcher) (force : Bool)
  | cls (k : Cls) (force : Bool)
  | parse (udb : Bool) (m : Matcher) (force : Bool)
  | ask (name : String) (label : Seq) (anc : Option Seq) (index : Nat)

/-- The effect of a call. -/
noncomputable def Op.run (db : String → Except Err CpSet) (fuel : Nat) (s : RuleState) : Op → RuleState
  | .rule m force => (s.addRule m force).1
  | .cls k force => (s.addClass k force).1
  | .parse udb m force => (s.parseRule db fuel udb m force).1
  | .ask name label anc index => (s.matches_ db fuel name label anc index).1

/-- The name of a rule. -/
def ruleName : Matcher → Option String
  | .rule _ nm _ _ _ => nm
  | _ => none

/-- The call defines no name again, and its rules are objects of their own. -/
def Op.Fresh (obj : Nat → Option String × List Matcher) (s : RuleState) : Op → Prop
  | .rule m _ => Own obj m ∧ ∀ n, ruleName m = some n → n ∉ s.lk.rules.map Prod.fst
  | .parse _ m _ => Own obj m ∧ ∀ n, ruleName m = some n → n ∉ s.lk.rules.map Prod.fst
  | .cls k _ => ∀ n, RuleState.clsName k = some n →
      n ∉ s.lk.classes.map Prod.fst ∧ ∀ t, n ≠ Cls.tagPrefix ++ t
  | .ask _ _ _ _ => True

/-- All calls of a history are such. -/
def AllFresh (db : String → Except Err CpSet) (fuel : Nat) (obj : Nat → Option String × List Matcher) :
    RuleState → List Op → Prop
  | _, [] => True
  | s, o :: os => o.Fresh obj s ∧ AllFresh db fuel obj (o.run db fuel s) os

/-- What such calls maintain. -/
def Inv (db : String → Except Err CpSet) (obj : Nat → Option String × List Matcher) (s : RuleState) : Prop :=
  CacheOK db s.lk obj s.cache ∧ ∀ n m, dget s.lk.rules n = some m → Own obj m

theorem inv_addRule {obj : Nat → Option String × List Matcher} {s : RuleState} (h : Inv db obj s) (m : Matcher)
    (force : Bool) (hf : Own obj m ∧ ∀ n, ruleName m = some n → n ∉ s.lk.rules.map Prod.fst) :
    Inv db obj (s.addRule m force).1 := by
  cases m with
  | rule id nm br ms c =>
    have put : Inv db obj (match nm with
        | none => (s, (.ok () : Except Err Unit))
        | some n => ({ s with lk := { s.lk with rules := dset s.lk.rules n (.rule id nm br ms c) } }, .ok ())).1 := by
      cases nm with
      | none => exact h
      | some n =>
        have hn := hf.2 n rfl
        constructor
        · refine cacheOK_grows (lk := s.lk)
            (lk' := { s.lk with rules := dset s.lk.rules n (.rule id (some n) br ms c) })
            ⟨?_, fun _ _ h => h, fun _ h => h⟩ h.1
          intro n' m' hm'
          simp only [dget_dset]
          rw [if_neg]
          · exact hm'
          · rintro rfl
            exact hn (dget_isSome.mp (by rw [hm']; rfl))
        · intro n' m' hm'
          simp only [dget_dset] at hm'
          split at hm'
          · cases hm'; exact hf.1
          · exact h.2 n' m' hm'
    simp only [RuleState.addRule]
    cases hv : Matcher.validate s.lk true (.rule id nm br ms c) with
    | error e =>
      cases force with
      | false => exact h
      | true => exact put
    | ok u => exact put
  | _ => exact h

/-- Such calls keep the cache correct. -/
theorem inv_run {obj : Nat → Option String × List Matcher} {fuel : Nat} {s : RuleState} (h : Inv db obj s) (o : Op)
    (hf : o.Fresh obj s) : Inv db obj (o.run db fuel s) := by
  cases o with
  | rule m force => exact inv_addRule h m force hf
  | cls k force =>
    have put : Inv db obj (match RuleState.clsName k with
        | none => (s, (.ok () : Except Err Unit))
        | some n => ({ s with lk := { s.lk with classes := dset s.lk.classes n k } }, .ok ())).1 := by
      cases hk : RuleState.clsName k with
      | none => exact h
      | some n =>
        obtain ⟨hn, ht⟩ := hf n hk
        refine ⟨cacheOK_grows (lk := s.lk) (lk' := { s.lk with classes := dset s.lk.classes n k })
          ⟨fun _ _ h => h, ?_, ?_⟩ h.1, h.2⟩
        · intro n' c hc
          simp only [dget_dset]
          rw [if_neg]
          · exact hc
          · rintro rfl
            exact hn (dget_isSome.mp (by rw [hc]; rfl))
        · intro t hc
          simp only [dget_dset]
          rw [if_neg (ht t)]
          exact hc
    simp only [Op.run, RuleState.addClass]
    cases hv : Cls.validate s.lk.classes true k with
    | error e =>
      cases force with
      | false => exact h
      | true => exact put
    | ok u => exact put
  | parse udb m force =>
    simp only [Op.run, RuleState.parseRule]
    cases udb with
    | false => exact inv_addRule h m force hf
    | true =>
      simp only [if_true]
      rw [Matcher.precalculate]
      have h1 := (patternC_same h.2 fuel true m s.cache hf.1 h.1).1
      rcases hp : patternC db s.lk fuel true m s.cache with ⟨κ1, o1⟩
      rw [hp] at h1
      cases o1 with
      | error e => exact ⟨h1, h.2⟩
      | ok r =>
        simp only
        have h2 := (patternC_same h.2 fuel false m κ1 hf.1 h1).1
        rcases hp2 : patternC db s.lk fuel false m κ1 with ⟨κ2, o2⟩
        rw [hp2] at h2
        cases o2 with
        | error e => exact ⟨h2, h.2⟩
        | ok r2 => exact inv_addRule (s := { s with cache := κ2 }) ⟨h2, h.2⟩ m force hf
  | ask name label anc index =>
    simp only [Op.run, RuleState.matches_]
    cases hd : dget s.lk.rules name with
    | none => exact h
    | some m =>
      simp only [Matcher.ruleMatchesC]
      have h1 := (patternC_same h.2 fuel false m s.cache (h.2 name m hd) h.1).1
      rcases hp : patternC db s.lk fuel false m s.cache with ⟨κ1, o1⟩
      rw [hp] at h1
      cases o1 with
      | error e => exact ⟨h1, h.2⟩
      | ok r => exact ⟨h1, h.2⟩

/-- What the answer is by the definitions there are now. -/
noncomputable def answer (db : String → Except Err CpSet) (fuel : Nat) (s : RuleState) (name : String) (label : Seq)
    (anc : Option Seq) (index : Nat) : Except Err Bool :=
  match dget s.lk.rules name with
  | none => .error (.keyError name)
  | some m => Matcher.ruleMatches db s.lk fuel m label anc index

/-- With a correct cache answers are those by the definitions there are now. -/
theorem answer_exact {obj : Nat → Option String × List Matcher} {s : RuleState} (h : Inv db obj s) (fuel : Nat)
    (name : String) (label : Seq) (anc : Option Seq) (index : Nat)
    (hd : Done (answer db fuel s name label anc index)) :
    (s.matches_ db fuel name label anc index).2 = answer db fuel s name label anc index := by
  unfold answer at hd ⊢
  unfold RuleState.matches_
  cases hm : dget s.lk.rules name with
  | none => rfl
  | some m =>
    simp only [hm] at hd ⊢
    unfold Matcher.ruleMatches at hd ⊢
    unfold Matcher.ruleMatchesC
    obtain ⟨-, h2, h3⟩ := patternC_same h.2 fuel false m s.cache (h.2 name m hm) h.1
    have hpd : Done (pattern db s.lk fuel false m) := by
      intro hc; rw [hc] at hd; exact hd rfl
    have hCd := h3 hpd
    obtain ⟨f, hf⟩ := h2 hCd
    simp only at hf
    have heq : (patternC db s.lk fuel false m s.cache).2 = pattern db s.lk fuel false m := by
      rw [← hf]
      exact pattern_unique (by rw [hf]; exact hCd) hpd
    rcases hp : patternC db s.lk fuel false m s.cache with ⟨κ1, o1⟩
    rw [hp] at heq
    simp only at heq
    rw [← heq]
    cases o1 <;> rfl

/-- (Partial: only as long as no name is defined again and tags do not change.) Whatever rules and classes
were added, parsed with or without precalculating patterns, or matched before: the answer is that of the
definitions there are now. -/
theorem cache_transparent_partial {obj : Nat → Option String × List Matcher} (fuel : Nat) (os : List Op)
    (classes : List (String × Cls)) (hf : AllFresh db fuel obj { lk := { classes := classes } } os)
    (name : String) (label : Seq) (anc : Option Seq) (index : Nat)
    (hd : Done (answer db fuel (os.foldl (Op.run db fuel) { lk := { classes := classes } }) name label anc index)) :
    ((os.foldl (Op.run db fuel) { lk := { classes := classes } }).matches_ db fuel name label anc index).2 =
      answer db fuel (os.foldl (Op.run db fuel) { lk := { classes := classes } }) name label anc index := by
  refine answer_exact (obj := obj) ?_ fuel name label anc index hd
  clear hd
  have h0 : Inv db obj { lk := { classes := classes } } :=
    ⟨by intro id beh r hr; simp [dget] at hr, by intro n m hm; simp [dget] at hm⟩
  generalize (⟨⟨[], classes⟩, []⟩ : RuleState) = s at h0 hf
  induction os generalizing s with
  | nil => exact h0
  | cons o os ih => exact ih _ (inv_run h0 o hf.1) hf.2

/-! ## Violations -/

theorem matches_set (label : Seq) (s : CpSet) :
    matchesPattern label (.seqs [.set s]) none 0 = .ok (label.any s) := by
  unfold matchesPattern
  simp only [Re.seqs, Re.blank, Re.hasAnchor, Re.compiles]
  have h := C63.search_isSome label (.seq (.set s) .empty) 0
  cases hs : search label (.seq (.set s) .empty) 0 with
  | none =>
    rw [hs] at h
    simp only [Option.isSome_none, Bool.false_eq_true, false_iff] at h
    have : label.any s = false := by
      rw [List.any_eq_false]
      intro c hc hsc
      obtain ⟨i, hi⟩ := List.mem_iff_getElem?.mp hc
      apply h
      have hlt := (List.getElem?_eq_some_iff.mp hi).1
      exact ⟨i, Nat.zero_le _, by omega, i + 1, i + 1, ⟨c, hi, hsc, rfl⟩, rfl⟩
    simp [hs, this, Re.compiles]
  | some i =>
    rw [hs] at h
    simp only [Option.isSome_some, true_iff] at h
    obtain ⟨i, -, -, j, k, ⟨c, hc, hsc, -⟩, -⟩ := h
    have : label.any s = true := List.any_eq_true.mpr ⟨c, List.mem_of_getElem? hc, hsc⟩
    simp [hs, this, Re.compiles]

/-- `<rule name="r"><class from-tag="t"/></rule>` -/
def ruleT : Matcher := .rule 0 (some "r") none [.cls (.base { fromTag := some "t" }) .none] .none

/-- An LGR with U+0061 tagged "t" and the rule. -/
def lgrT : RuleState := ((RuleState.addTag {} [0x61] "t").addRule ruleT false).1

/-- The same after the rule was matched against a label. -/
noncomputable def lgrT1 : RuleState := (lgrT.matches_ C42.noDb 9 "r" [0x61] none 0).1

theorem pat_of (s : CpSet) (x : Nat) (hx : x < 0x110000) (h : s x = true) :
    (if s.isEmpty = true then Re.empty else Re.set s) = .set s := by
  rw [C63.isEmpty_false hx h]; rfl

theorem patternT (lk : Lookups) (cps : List Nat) (x : Nat) (hx : x < 0x110000) (hmem : x ∈ cps)
    (h : dget lk.classes (Cls.tagPrefix ++ "t") = some (.base { name := some "t", codepoints := cps })) (κ : Cache)
    (hκ : dget κ (0, false) = none) :
    patternC C42.noDb lk 9 false ruleT κ =
      (dset κ (0, false) (.seqs [.set (fun c => decide (c ∈ cps))]), .ok (.seqs [.set (fun c => decide (c ∈ cps))])) := by
  have e : classPattern C42.noDb lk 7 (.base { fromTag := some "t" }) = .ok (.set (fun c => decide (c ∈ cps))) := by
    unfold classPattern
    rw [Cls.getSet]
    simp only [h]
    rw [Cls.getSet]
    simp only
    rw [pat_of _ x hx (by simpa using hmem)]
  rw [ruleT, patternC.eq_def]
  simp only [hκ, mapC]
  rw [patternC.eq_def]
  simp only [e]
  rfl

/-- Violation: after a match the rule goes on matching the code points tagged at the time. Another code point
is tagged, and is in a label: by the definitions the rule matches, but the LGR says it does not. -/
theorem cache_stale :
    ((lgrT1.addTag [0x62] "t").matches_ C42.noDb 9 "r" [0x62] none 0).2 = .ok false ∧
    answer C42.noDb 9 (lgrT1.addTag [0x62] "t") "r" [0x62] none 0 = .ok true ∧
    ((lgrT.addTag [0x62] "t").matches_ C42.noDb 9 "r" [0x62] none 0).2 = .ok true := by
  have hl : lgrT.lk.rules = [("r", ruleT)] := rfl
  have hc : lgrT.lk.classes = [(Cls.tagPrefix ++ "t", .base { name := some "t", codepoints := [0x61] })] := rfl
  have hk : lgrT.cache = [] := rfl
  have p0 := patternT lgrT.lk [0x61] 0x61 (by decide) (by simp) (by rw [hc]; rfl) [] rfl
  have h1 : lgrT1 = { lgrT with cache := dset [] (0, false) (.seqs [.set (fun c => decide (c ∈ [0x61]))]) } := by
    unfold lgrT1 RuleState.matches_
    have hd : dget lgrT.lk.rules "r" = some ruleT := rfl
    simp only [hd]
    rw [Matcher.ruleMatchesC, hk, p0]
  have p2 : ∀ κ, dget κ (0, false) = none → patternC C42.noDb (lgrT.addTag [0x62] "t").lk 9 false ruleT κ =
      (dset κ (0, false) (.seqs [.set (fun c => decide (c ∈ [0x61, 0x62]))]),
        .ok (.seqs [.set (fun c => decide (c ∈ [0x61, 0x62]))])) := fun κ hκ =>
    patternT _ [0x61, 0x62] 0x61 (by decide) (by simp) rfl κ hκ
  have h2 : (lgrT1.addTag [0x62] "t").lk = (lgrT.addTag [0x62] "t").lk := by rw [h1]; rfl
  have h3 : (lgrT1.addTag [0x62] "t").cache =
      [((0, false), .seqs [.set (fun c => decide (c ∈ [0x61]))])] := by rw [h1]; rfl
  have hd2 : dget (lgrT.addTag [0x62] "t").lk.rules "r" = some ruleT := rfl
  have hfresh : ((lgrT.addTag [0x62] "t").matches_ C42.noDb 9 "r" [0x62] none 0).2 = .ok true := by
    unfold RuleState.matches_
    simp only [hd2]
    rw [Matcher.ruleMatchesC]
    have : (lgrT.addTag [0x62] "t").cache = [] := rfl
    rw [this, p2 [] rfl]
    simp only [matches_set]
    rfl
  refine ⟨?_, ?_, hfresh⟩
  · unfold RuleState.matches_
    rw [h2, h3]
    simp only [hd2]
    rw [Matcher.ruleMatchesC]
    have : patternC C42.noDb (lgrT.addTag [0x62] "t").lk 9 false ruleT
        [((0, false), .seqs [.set (fun c => decide (c ∈ [0x61]))])] =
        ([((0, false), .seqs [.set (fun c => decide (c ∈ [0x61]))])],
          .ok (.seqs [.set (fun c => decide (c ∈ [0x61]))])) := by
      rw [ruleT, patternC.eq_def]
      rfl
    rw [this]
    simp only [matches_set]
    rfl
  · unfold answer
    rw [h2]
    simp only [hd2]
    rw [Matcher.ruleMatches]
    have : pattern C42.noDb (lgrT.addTag [0x62] "t").lk 9 false ruleT =
        .ok (.seqs [.set (fun c => decide (c ∈ [0x61, 0x62]))]) := by
      have e : classPattern C42.noDb (lgrT.addTag [0x62] "t").lk 7 (.base { fromTag := some "t" }) =
          .ok (.set (fun c => decide (c ∈ [0x61, 0x62]))) := by
        unfold classPattern
        have : Cls.getSet C42.noDb (lgrT.addTag [0x62] "t").lk.classes 7 (.base { fromTag := some "t" }) =
            .ok (fun c => decide (c ∈ [0x61, 0x62])) := rfl
        rw [this]
        simp only
        rw [pat_of _ 0x61 (by decide) (by simp)]
      rw [ruleT, pattern.eq_def]
      simp only [List.mapM_cons, List.mapM_nil]
      rw [pattern.eq_def]
      simp only [e]
      rfl
    rw [this]
    simp only [matches_set]
    rfl

end Lgr.C65

namespace Lgr.C66
open Lgr Matcher C63

variable {db : String → Except Err CpSet} {lk : Lookups}

mutual

/-- Something holds of all classes, and something of all counts. -/
def Parts (P : Cls → Prop) (Q : Count → Prop) : Matcher → Prop
  | .any c => Q c
  | .char _ c => Q c
  | .ahead ms => PartsL P Q ms
  | .behind ms => PartsL P Q ms
  | .choice ms c => Q c ∧ PartsL P Q ms
  | .cls k c => Q c ∧ P k
  | .rule _ _ _ ms c => Q c ∧ PartsL P Q ms
  | _ => True

/-- The same for lists. -/
def PartsL (P : Cls → Prop) (Q : Count → Prop) : List Matcher → Prop
  | [] => True
  | m :: ms => Parts P Q m ∧ PartsL P Q ms

end

/-- The bounds of a count are in order, and not above 63. -/
def InOrder : Count → Prop
  | .range lo hi => lo ≤ hi
  | .atLeast n => n ≤ labelMax
  | _ => True

theorem partsL_iff {P : Cls → Prop} {Q : Count → Prop} {ms : List Matcher} :
    PartsL P Q ms ↔ ∀ m ∈ ms, Parts P Q m := by
  induction ms with
  | nil => simp [PartsL]
  | cons m ms ih => simp [PartsL, ih]

theorem parts_mono {P P' : Cls → Prop} {Q : Count → Prop} (h : ∀ k, P k → P' k) :
    ∀ m, Parts P Q m → Parts P' Q m := by
  refine matcher_ind ?_ ?_ ?_ ?_ ?_ ?_ ?_ ?_ ?_ ?_
  · exact fun h => h
  · exact fun h => h
  · exact fun h => h
  · exact fun c h => h
  · exact fun cps c h => h
  · intro ms ih hm
    rw [Parts, partsL_iff] at hm ⊢
    exact fun m hmem => ih m hmem (hm m hmem)
  · intro ms ih hm
    rw [Parts, partsL_iff] at hm ⊢
    exact fun m hmem => ih m hmem (hm m hmem)
  · intro ms c ih hm
    rw [Parts, partsL_iff] at hm ⊢
    exact ⟨hm.1, fun m hmem => ih m hmem (hm.2 m hmem)⟩
  · intro k c hm; exact ⟨hm.1, h k hm.2⟩
  · intro id nm br ms c ih hm
    rw [Parts, partsL_iff] at hm ⊢
    exact ⟨hm.1, fun m hmem => ih m hmem (hm.2 m hmem)⟩

theorem mapM_pat {beh : Bool} {ms : List Matcher} (h : ∀ m ∈ ms, ∃ f p, pattern db lk f beh m = .ok p ∧ p.compiles = true) :
    ∃ f rs, ms.mapM (pattern db lk f beh) = .ok rs ∧ ∀ r ∈ rs, r.compiles = true := by
  induction ms with
  | nil => exact ⟨0, [], rfl, by simp⟩
  | cons m ms ih =>
    obtain ⟨f1, p, hp, hc⟩ := h m (by simp)
    obtain ⟨f2, rs, hrs, hcs⟩ := ih (fun m hm => h m (by simp [hm]))
    have e1 := C65.pattern_stable_le (Nat.le_max_left f1 f2) (db := db) (lk := lk) (beh := beh) (m := m)
      (by rw [hp]; intro hc; cases hc)
    have e2 := C65.patterns_stable_le (Nat.le_max_right f1 f2) (db := db) (lk := lk) (beh := beh) (ms := ms)
      (by rw [hrs]; intro hc; cases hc)
    refine ⟨max f1 f2, p :: rs, ?_, ?_⟩
    · rw [List.mapM_cons, e1, e2, hp, hrs]; rfl
    · intro r hr
      rcases List.mem_cons.mp hr with rfl | hr
      · exact hc
      · exact hcs r hr

theorem compiles_seqs_of {rs : List Re} (h : ∀ r ∈ rs, r.compiles = true) : (Re.seqs rs).compiles = true := by
  induction rs with
  | nil => rfl
  | cons r rs ih =>
    rw [Re.seqs, Re.compiles, h r (by simp), ih (fun r hr => h r (by simp [hr]))]; rfl

theorem compiles_alts_of : ∀ {rs : List Re}, (∀ r ∈ rs, r.compiles = true) → (Re.alts rs).compiles = true
  | [], _ => rfl
  | [r], h => by rw [Re.alts, Re.compiles]; exact h r (by simp)
  | r :: s :: l, h => by
    rw [Re.alts, Re.compiles, Re.compiles, h r (by simp), compiles_alts_of (fun r hr => h r (by simp [hr]))]; rfl

theorem compiles_count {beh : Bool} {c : Count} (hc : InOrder c) {r : Re} (h : r.compiles = true) :
    (withCount beh c r).compiles = true := by
  cases c with
  | none => simpa [withCount, Count.bounds] using h
  | exact n => simp [withCount, Count.bounds, Re.compiles, h]
  | range lo hi => simpa [withCount, Count.bounds, Re.compiles, h, InOrder] using hc
  | atLeast n =>
    cases beh with
    | false => simp [withCount, Count.bounds, Re.compiles, h]
    | true => simpa [withCount, Count.bounds, Re.compiles, h, InOrder] using hc

/-- Rules which refer to rules of a lower rank, and have classes that can be evaluated and counts in order,
have a pattern, which compiles. -/
theorem pattern_total {rank : String → Nat} {P : Cls → Prop}
    (hP : ∀ k, P k → ∃ f s, Cls.getSet db lk.classes f k = .ok s)
    (hr : RuleRanked lk.rules rank) (hparts : ∀ n m, dget lk.rules n = some m → Parts P InOrder m) :
    ∀ N (m : Matcher), Parts P InOrder m → (∀ n, RefersTo n m → n ∈ lk.rules.map Prod.fst ∧ rank n < N) →
      ∀ beh, ∃ f p, pattern db lk f beh m = .ok p ∧ p.compiles = true := by
  intro N
  induction N using Nat.strong_induction_on with
  | _ N ihN =>
    refine matcher_ind ?_ ?_ ?_ ?_ ?_ ?_ ?_ ?_ ?_ ?_
    · exact fun _ _ _ => ⟨1, _, rfl, rfl⟩
    · exact fun _ _ _ => ⟨1, _, rfl, rfl⟩
    · exact fun _ _ _ => ⟨1, _, rfl, rfl⟩
    · exact fun c hc _ beh => ⟨1, _, rfl, compiles_count hc rfl⟩
    · exact fun cps c hc _ beh => ⟨1, _, rfl, compiles_count hc rfl⟩
    · intro ms ih hm href beh
      rw [Parts, partsL_iff] at hm
      obtain ⟨f, rs, h1, h2⟩ := mapM_pat (beh := false)
        (fun m hmem => ih m hmem (hm m hmem) (fun n hn => href n (.ahead ms m hmem hn)) false)
      exact ⟨f + 1, .ahead (.seqs rs), by rw [pattern, h1], compiles_seqs_of h2⟩
    · intro ms ih hm href beh
      rw [Parts, partsL_iff] at hm
      obtain ⟨f, rs, h1, h2⟩ := mapM_pat (beh := true)
        (fun m hmem => ih m hmem (hm m hmem) (fun n hn => href n (.behind ms m hmem hn)) true)
      exact ⟨f + 1, .behind (.seqs rs), by rw [pattern, h1], compiles_seqs_of h2⟩
    · intro ms c ih hm href beh
      rw [Parts, partsL_iff] at hm
      obtain ⟨f, rs, h1, h2⟩ := mapM_pat (beh := beh)
        (fun m hmem => ih m hmem (hm.2 m hmem) (fun n hn => href n (.choice ms c m hmem hn)) beh)
      exact ⟨f + 1, withCount beh c (.group (.alts rs)), by rw [pattern, h1], compiles_count hm.1 (compiles_alts_of h2)⟩
    · intro k c hm href beh
      rw [Parts] at hm
      obtain ⟨f, s, hs⟩ := hP k hm.2
      refine ⟨f + 1, withCount beh c (if s.isEmpty then .empty else .set s), ?_, compiles_count hm.1 ?_⟩
      · rw [pattern, classPattern, hs]
      · split <;> rfl
    · intro id nm br ms c ih hm href beh
      rw [Parts, partsL_iff] at hm
      cases br with
      | some n =>
        obtain ⟨hn1, hn2⟩ := href n (.ref id nm ms c)
        obtain ⟨m, hd⟩ := Option.isSome_iff_exists.mp (dget_isSome.mpr hn1)
        obtain ⟨f, p, h1, h2⟩ := ihN (rank n) hn2 m (hparts n m hd) (hr n m hd) beh
        refine ⟨f + 1, withCount beh c p, ?_, compiles_count hm.1 h2⟩
        rw [pattern.eq_def]
        simp only [hd, h1]
      | none =>
        obtain ⟨f, rs, h1, h2⟩ := mapM_pat (beh := beh)
          (fun m hmem => ih m hmem (hm.2 m hmem) (fun n hn => href n (.rule id nm ms c m hmem hn)) beh)
        refine ⟨f + 1, withCount beh c (.seqs rs), ?_, compiles_count hm.1 (compiles_seqs_of h2)⟩
        rw [pattern.eq_def]
        simp only [h1]

theorem matchesPattern_total {p : Re} (hc : p.compiles = true) (label : Seq) (anc : Option Seq) (index : Nat) :
    ∃ b, matchesPattern label p anc index = .ok b := by
  unfold matchesPattern
  split
  · exact ⟨_, rfl⟩
  · simp only
    rw [if_neg]
    · split
      · exact ⟨_, rfl⟩
      · exact ⟨_, rfl⟩
    · split
      · rw [compiles_subst, hc]; simp
      · rw [hc]; simp

/-! ## Histories -/

theorem validate_parts : ∀ m top, Matcher.validate lk top m = .ok () →
    (∀ n, RefersTo n m → n ∈ lk.rules.map Prod.fst) ∧ Parts (C42.Proper lk.classes) (fun _ => True) m := by
  have lists : ∀ ms, (∀ m ∈ ms, ∀ top, Matcher.validate lk top m = .ok () →
      (∀ n, RefersTo n m → n ∈ lk.rules.map Prod.fst) ∧ Parts (C42.Proper lk.classes) (fun _ => True) m) →
      Matcher.validateAll lk ms = .ok () →
      (∀ m ∈ ms, ∀ n, RefersTo n m → n ∈ lk.rules.map Prod.fst) ∧
        PartsL (C42.Proper lk.classes) (fun _ => True) ms := by
    intro ms
    induction ms with
    | nil => intro _ _; exact ⟨by simp, trivial⟩
    | cons m ms ih =>
      intro h hv
      rw [Matcher.validateAll] at hv
      cases hm : Matcher.validate lk false m with
      | error e => simp [hm] at hv
      | ok u =>
        simp only [hm] at hv
        obtain ⟨h1, h2⟩ := h m (by simp) false hm
        obtain ⟨h3, h4⟩ := ih (fun m hm => h m (by simp [hm])) hv
        refine ⟨?_, h2, h4⟩
        intro m' hm'
        rcases List.mem_cons.mp hm' with rfl | hm'
        · exact h1
        · exact h3 m' hm'
  refine matcher_ind ?_ ?_ ?_ ?_ ?_ ?_ ?_ ?_ ?_ ?_
  · intro _ _; exact ⟨fun n h => (by cases h), trivial⟩
  · intro _ _; exact ⟨fun n h => (by cases h), trivial⟩
  · intro _ _; exact ⟨fun n h => (by cases h), trivial⟩
  · intro _ _ _; exact ⟨fun n h => (by cases h), trivial⟩
  · intro _ _ _ _; exact ⟨fun n h => (by cases h), trivial⟩
  · intro ms ih top hv
    rw [Matcher.validate] at hv
    obtain ⟨h1, h2⟩ := lists ms ih hv
    refine ⟨?_, h2⟩
    intro n h
    cases h with
    | ahead _ m hm hn => exact h1 m hm n hn
  · intro ms ih top hv
    rw [Matcher.validate] at hv
    obtain ⟨h1, h2⟩ := lists ms ih hv
    refine ⟨?_, h2⟩
    intro n h
    cases h with
    | behind _ m hm hn => exact h1 m hm n hn
  · intro ms c ih top hv
    rw [Matcher.validate] at hv
    obtain ⟨h1, h2⟩ := lists ms ih hv
    refine ⟨?_, trivial, h2⟩
    intro n h
    cases h with
    | choice _ _ m hm hn => exact h1 m hm n hn
  · intro k c top hv
    rw [Matcher.validate] at hv
    refine ⟨fun n h => (by cases h), trivial, ((C42.validate_exact lk.classes k false).mp hv).2⟩
  · intro id nm br ms c ih top hv
    rw [Matcher.validate] at hv
    split at hv
    · cases hv
    · rename_i hbr
      split at hv
      · cases hv
      · obtain ⟨h1, h2⟩ := lists ms ih hv
        refine ⟨?_, trivial, h2⟩
        intro n h
        cases h with
        | ref =>
          rw [← dget_isSome]
          by_contra hc
          apply hbr
          refine ⟨rfl, ?_⟩
          simpa using hc
        | rule _ _ _ _ m hm hn => exact h1 m hm n hn

/-- Calls that define classes, tags and rules. -/
inductive Call where
  | cls (c : C42.Call)
  | rule (m : Matcher)

/-- The effect of a call; `add_class` and `add_rule` are not forced. -/
def Call.run (s : RuleState) : Call → RuleState
  | .cls c => c.run s
  | .rule m => (s.addRule m false).1

/-- The calls define no name twice, and no name of a class that looks like a tag's. -/
def Fresh : RuleState → List Call → Prop
  | _, [] => True
  | s, c :: cs =>
    (match c with
     | .cls (.cls k) =>
        ∀ n, RuleState.clsName k = some n → n ∉ s.lk.classes.map Prod.fst ∧ ∀ t, n ≠ Cls.tagPrefix ++ t
     | .rule m => ∀ n, C65.ruleName m = some n → n ∉ s.lk.rules.map Prod.fst
     | _ => True) ∧ Fresh (c.run s) cs

/-- Properties are known and counts are in order. -/
def Fine (db : String → Except Err CpSet) : Call → Prop
  | .cls (.cls k) => C42.Every (C42.Known db) (fun _ _ => True) k
  | .cls _ => True
  | .rule m => Parts (C42.Every (C42.Known db) (fun _ _ => True)) InOrder m

/-- What such calls maintain. -/
structure Inv (db : String → Except Err CpSet) (s : RuleState) (crank rrank : String → Nat) : Prop where
  cls : C42.Inv db s.lk.classes crank
  ranked : RuleRanked s.lk.rules rrank
  parts : ∀ n m, dget s.lk.rules n = some m →
    Parts (fun k => C42.Proper s.lk.classes k ∧ C42.Every (C42.Known db) (fun _ _ => True) k) InOrder m

theorem proper_mono {cl cl' : List (String × Cls)} (h : ∀ n, n ∈ cl.map Prod.fst → n ∈ cl'.map Prod.fst) :
    ∀ k, C42.Proper cl k → C42.Proper cl' k := by
  refine C42.cls_ind (fun b hb n hn => h n (hb n hn)) ?_
  intro n op cs ih hp
  rw [C42.Proper] at hp ⊢
  refine ⟨hp.1, ?_⟩
  have h2 := hp.2
  clear hp
  induction cs with
  | nil => trivial
  | cons c cs ihcs =>
    exact ⟨⟨h2.1.1, ih c (by simp) h2.1.2⟩, ihcs (fun d hd => ih d (by simp [hd])) h2.2⟩

theorem rule_bound (rules : List (String × Matcher)) (rank : String → Nat) :
    ∃ M, ∀ n, n ∈ rules.map Prod.fst → rank n < M := by
  induction rules with
  | nil => exact ⟨0, by simp⟩
  | cons p lk ih =>
    obtain ⟨M, hM⟩ := ih
    refine ⟨max M (rank p.1 + 1), ?_⟩
    intro n hn
    simp only [List.map_cons, List.mem_cons] at hn
    rcases hn with rfl | hn
    · omega
    · have := hM n hn; omega

theorem keys_dset {β : Type} (d : List (String × β)) (x : String) (v : β) (n : String) (h : n ∈ d.map Prod.fst) :
    n ∈ (dset d x v).map Prod.fst := by
  rw [← dget_isSome, dget_dset]
  split
  · rfl
  · exact dget_isSome.mpr h

theorem call_keys (s : RuleState) (c : C42.Call) :
    (c.run s).lk.rules = s.lk.rules ∧
    ∀ n, n ∈ s.lk.classes.map Prod.fst → n ∈ (c.run s).lk.classes.map Prod.fst := by
  cases c with
  | tag cp t =>
    simp only [C42.Call.run, RuleState.addTag]
    split
    · exact ⟨rfl, fun n h => keys_dset _ _ _ n h⟩
    · exact ⟨rfl, fun n h => keys_dset _ _ _ n h⟩
    · exact ⟨rfl, fun n h => h⟩
  | untag cp t =>
    simp only [C42.Call.run, RuleState.delTag]
    split
    · exact ⟨rfl, fun n h => keys_dset _ _ _ n h⟩
    · exact ⟨rfl, fun n h => h⟩
  | cls k =>
    simp only [C42.Call.run, RuleState.addClass]
    split
    · exact ⟨rfl, fun n h => h⟩
    · split
      · exact ⟨rfl, fun n h => h⟩
      · exact ⟨rfl, fun n h => keys_dset _ _ _ n h⟩

theorem inv_run {s : RuleState} {crank rrank : String → Nat} (h : Inv db s crank rrank) (c : Call)
    (hf : Fresh s [c]) (hfine : Fine db c) : ∃ crank' rrank', Inv db (c.run s) crank' rrank' := by
  cases c with
  | cls c =>
    have hcl : ∃ crank', C42.Inv db (c.run s).lk.classes crank' := by
      have := C42.fresh_inv (db := db) [c] s crank h.cls (by
        refine ⟨?_, trivial⟩
        cases c with
        | cls k => exact hf.1
        | tag cp t => trivial
        | untag cp t => trivial) (by
        intro k hk
        simp only [List.mem_singleton] at hk
        subst hk
        exact hfine)
      simpa using this
    obtain ⟨crank', hc'⟩ := hcl
    obtain ⟨hr, hk⟩ := call_keys s c
    refine ⟨crank', rrank, hc', ?_, ?_⟩
    · show RuleRanked (c.run s).lk.rules rrank
      rw [hr]; exact h.ranked
    · intro n m hm
      have hm' : dget (c.run s).lk.rules n = some m := hm
      rw [hr] at hm'
      exact parts_mono (fun k hkk => ⟨proper_mono hk k hkk.1, hkk.2⟩) m (h.parts n m hm')
  | rule m =>
    show ∃ crank' rrank', Inv db (s.addRule m false).1 crank' rrank'
    cases m with
    | rule id nm br ms c =>
      simp only [RuleState.addRule]
      cases hv : Matcher.validate s.lk true (.rule id nm br ms c) with
      | error e => exact ⟨crank, rrank, h⟩
      | ok u =>
        cases nm with
        | none => exact ⟨crank, rrank, h⟩
        | some n =>
          simp only
          have hn : n ∉ s.lk.rules.map Prod.fst := hf.1 n rfl
          obtain ⟨hv1, hv2⟩ := validate_parts _ _ hv
          obtain ⟨M, hM⟩ := rule_bound s.lk.rules rrank
          refine ⟨crank, fun x => if x = n then M else rrank x, h.cls, ?_, ?_⟩
          · intro n1 m1 hm1 n2 hn2
            simp only [dget_dset] at hm1
            split at hm1
            · rename_i he
              subst he
              cases hm1
              have hmem := hv1 n2 hn2
              refine ⟨keys_dset _ _ _ n2 hmem, ?_⟩
              have hne : n2 ≠ n := fun e => hn (e ▸ hmem)
              simp only [if_neg hne, if_true]
              exact hM n2 hmem
            · rename_i hne
              obtain ⟨hmem, hlt⟩ := h.ranked n1 m1 hm1 n2 hn2
              have hne2 : n2 ≠ n := fun e => hn (e ▸ hmem)
              refine ⟨keys_dset _ _ _ n2 hmem, ?_⟩
              simp only [if_neg hne2, if_neg (fun e => hne (Eq.symm e) : ¬n1 = n)]
              exact hlt
          · intro n1 m1 hm1
            simp only [dget_dset] at hm1
            split at hm1
            · cases hm1
              have hfine' : Parts (C42.Every (C42.Known db) (fun _ _ => True)) InOrder
                  (.rule id (some n) br ms c) := hfine
              have both : ∀ m, Parts (C42.Proper s.lk.classes) (fun _ => True) m →
                  Parts (C42.Every (C42.Known db) (fun _ _ => True)) InOrder m →
                  Parts (fun k => C42.Proper s.lk.classes k ∧ C42.Every (C42.Known db) (fun _ _ => True) k)
                    InOrder m := by
                refine matcher_ind ?_ ?_ ?_ ?_ ?_ ?_ ?_ ?_ ?_ ?_
                · intros; trivial
                · intros; trivial
                · intros; trivial
                · intro c _ h; exact h
                · intro cps c _ h; exact h
                · intro ms ih h1 h2
                  rw [Parts, partsL_iff] at h1 h2 ⊢
                  exact fun m hm => ih m hm (h1 m hm) (h2 m hm)
                · intro ms ih h1 h2
                  rw [Parts, partsL_iff] at h1 h2 ⊢
                  exact fun m hm => ih m hm (h1 m hm) (h2 m hm)
                · intro ms c ih h1 h2
                  rw [Parts, partsL_iff] at h1 h2 ⊢
                  exact ⟨h2.1, fun m hm => ih m hm (h1.2 m hm) (h2.2 m hm)⟩
                · intro k c h1 h2
                  exact ⟨h2.1, h1.2, h2.2⟩
                · intro id nm br ms c ih h1 h2
                  rw [Parts, partsL_iff] at h1 h2 ⊢
                  exact ⟨h2.1, fun m hm => ih m hm (h1.2 m hm) (h2.2 m hm)⟩
              exact both _ hv2 hfine'
            · exact h.parts n1 m1 hm1
    | _ => exact ⟨crank, rrank, h⟩

theorem proper_total {cl : List (String × Cls)} {rank : String → Nat} (hI : C42.Inv db cl rank) (k : Cls)
    (hp : C42.Proper cl k) (hk : C42.Every (C42.Known db) (fun _ _ => True) k) :
    ∃ f s, Cls.getSet db cl f k = .ok s := by
  obtain ⟨M, hM⟩ := C42.rank_bound cl rank
  refine C42.class_total hI.1 (M + 1) k ?_
  have hp' := C42.proper_every k hp
  clear hp
  revert hp' hk
  revert k
  refine C42.cls_ind ?_ ?_
  · intro b h2 h1
    rw [C42.Every] at h1 h2 ⊢
    unfold C42.Leaf
    cases hb : b.byRef with
    | some q =>
      have hq := h1 q hb
      have := hM q hq
      exact ⟨hq, by omega⟩
    | none =>
      cases htg : b.fromTag with
      | some t =>
        simp only [hI.2.1 t]
        intro _; omega
      | none =>
        cases hpr : b.property with
        | none => trivial
        | some p => exact h2 p hpr
  · intro n op cs ih h1 h2
    rw [C42.Every, C42.everyL_iff] at h1 h2 ⊢
    exact ⟨h2.1, fun c hc => ih c hc (h1.2 c hc) (h2.2 c hc)⟩

theorem inv_runs (cs : List Call) : ∀ (s : RuleState) (crank rrank : String → Nat), Inv db s crank rrank →
    Fresh s cs → (∀ c ∈ cs, Fine db c) → ∃ crank' rrank', Inv db (cs.foldl Call.run s) crank' rrank' := by
  induction cs with
  | nil => intro s crank rrank h _ _; exact ⟨_, _, h⟩
  | cons c cs ih =>
    intro s crank rrank h hf hfine
    obtain ⟨crank', rrank', h'⟩ := inv_run h c ⟨hf.1, trivial⟩ (hfine c (by simp))
    exact ih _ _ _ h' hf.2 (fun c hc => hfine c (by simp [hc]))

theorem inv_empty : Inv db {} (fun _ => 0) (fun _ => 0) :=
  ⟨⟨by intro n c hc; simp [dget] at hc, fun _ => rfl, by intro n c hc; simp [dget] at hc,
    by intro n c hc; simp [dget] at hc⟩, by intro n m hm; simp [dget] at hm, by intro n m hm; simp [dget] at hm⟩

/-- (Partial: only if no name is defined twice, and counts are in order.) After any history of tagging,
untagging and unforced definitions with known properties, matching a rule of the LGR never raises. -/
theorem matching_total_partial (cs : List Call) (hf : Fresh {} cs) (hfine : ∀ c ∈ cs, Fine db c) (name : String)
    (hname : name ∈ (cs.foldl Call.run {}).lk.rules.map Prod.fst) :
    ∃ fuel0, ∀ fuel, fuel0 ≤ fuel → ∀ label anc index,
      ∃ b, C65.answer db fuel (cs.foldl Call.run {}) name label anc index = .ok b := by
  have h0 := inv_empty (db := db)
  have hI := inv_runs cs {} _ _ h0 hf hfine
  obtain ⟨crank, rrank, hI⟩ := hI
  generalize cs.foldl Call.run {} = s at *
  obtain ⟨m, hm⟩ := Option.isSome_iff_exists.mp (dget_isSome.mpr hname)
  obtain ⟨f, p, h1, h2⟩ := pattern_total (lk := s.lk) (fun k hk => proper_total hI.cls k hk.1 hk.2) hI.ranked hI.parts
    (rrank name) m (hI.parts name m hm) (hI.ranked name m hm) false
  refine ⟨f, fun fuel hle label anc index => ?_⟩
  have e := C65.pattern_stable_le hle (db := db) (lk := s.lk) (beh := false) (m := m)
    (by rw [h1]; intro hc; cases hc)
  unfold C65.answer ruleMatches
  simp only [hm, e, h1]
  exact matchesPattern_total h2 label anc index

end Lgr.C66

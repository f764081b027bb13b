import Verif.Disposition
import Verif.Props.Action
import Verif.Props.Variants
import Verif.Props.CharVariants
import Mathlib.Data.List.Dedup

/-!
# C24, C25, C48: dispositions of a label and its variants
-/

namespace Lgr.Props
open Repertoire FullEnv

/-- Specification of the loop: what is yielded (without the original) and what is stored. -/
structure Listed (env : FullEnv) (r : Repertoire) (actions : List Action) (o : Options)
    (label : Seq) (handled : List Seq) (orig : Option Item) (gs : List Gen) (its : List Item)
    (orig' : Option Item) : Prop where
  notOrig : ∀ it ∈ its, it.cps ≠ label
  fresh : o.generateChars = false → ∀ it ∈ its, it.cps ∉ handled
  nodup : o.generateChars = false → (its.map Item.cps).Nodup
  noInvalid : o.includeInvalid = false → ∀ it ∈ its, it.disp ≠ some "invalid"
  stored : (∀ it, orig = some it → it.cps = label) → ∀ it, orig' = some it → it.cps = label
  source : ∀ it ∈ its, ∃ g ∈ gs, env.itemOf r actions label g = .ok it ∧
    (o.withLabels ≠ [] → g.cps ∈ o.withLabels)
  origSource : ∀ it, orig' = some it → orig = some it ∨
    ∃ g ∈ gs, env.itemOf r actions label g = .ok it ∧ (o.withLabels ≠ [] → g.cps ∈ o.withLabels)
  origValid : o.includeInvalid = false → (∀ it, orig = some it → it.disp ≠ some "invalid") →
    ∀ it, orig' = some it → it.disp ≠ some "invalid"
  complete : ∀ g ∈ gs, (o.withLabels ≠ [] → g.cps ∈ o.withLabels) → g.cps ∉ handled →
    ∃ g' ∈ gs, g'.cps = g.cps ∧ ∃ it, env.itemOf r actions label g' = .ok it ∧
      ((o.includeInvalid = false ∧ it.disp = some "invalid") ∨
        (g.cps ≠ label ∧ it ∈ its) ∨ (g.cps = label ∧ orig'.isSome = true))

theorem itemOf_cps {env : FullEnv} {r : Repertoire} {actions : List Action} {label : Seq} {g : Gen}
    {it : Item} (h : env.itemOf r actions label g = .ok it) : it.cps = g.cps := by
  unfold itemOf at h
  split at h
  · simp at h
  · split at h
    · cases h; rfl
    · split at h
      · simp at h
      · cases h; rfl

theorem listLoop_orig {env : FullEnv} {r : Repertoire} {actions : List Action} {o : Options}
    {label : Seq} : ∀ (gs : List Gen) (handled : List Seq) (orig : Option Item) (its orig'),
      env.listLoop r actions o label handled orig gs = .ok (its, orig') →
      orig.isSome = true → orig'.isSome = true
  | [], _, _, _, _, he, h => by
    simp only [listLoop, Except.ok.injEq, Prod.mk.injEq] at he; rw [← he.2]; exact h
  | g :: gs, handled, orig, its, orig', he, h => by
    unfold listLoop at he
    split at he
    · exact listLoop_orig gs _ _ _ _ he h
    split at he
    · exact listLoop_orig gs _ _ _ _ he h
    · split at he
      · simp at he
      · split_ifs at he
        · exact listLoop_orig gs _ _ _ _ he rfl
        · split at he
          · simp at he
          · rename_i hr
            simp only [Except.ok.injEq, Prod.mk.injEq] at he
            rw [← he.2]
            exact listLoop_orig gs _ _ _ _ hr h
        · exact listLoop_orig gs _ _ _ _ he h

theorem listLoop_spec {env : FullEnv} {r : Repertoire} {actions : List Action} {o : Options}
    {label : Seq} : ∀ (gs : List Gen) (handled : List Seq) (orig : Option Item) (its orig'),
      env.listLoop r actions o label handled orig gs = .ok (its, orig') →
      Listed env r actions o label handled orig gs its orig'
  | [], handled, orig, its, orig', he => by
    simp only [listLoop, Except.ok.injEq, Prod.mk.injEq] at he
    obtain ⟨rfl, rfl⟩ := he
    exact ⟨by simp, by simp, by simp, by simp, fun h => h, by simp, fun it h => Or.inl h,
      fun _ h => h, by simp⟩
  | g :: gs, handled, orig, its, orig', he => by
    have weaken : ∀ {it : Item}, (∃ x ∈ gs, env.itemOf r actions label x = .ok it ∧
        (o.withLabels ≠ [] → x.cps ∈ o.withLabels)) →
        ∃ x ∈ g :: gs, env.itemOf r actions label x = .ok it ∧
        (o.withLabels ≠ [] → x.cps ∈ o.withLabels) := by
      rintro it ⟨x, hx, h⟩; exact ⟨x, List.mem_cons_of_mem _ hx, h⟩
    unfold listLoop at he
    split at he
    · rename_i hdup
      have ih := listLoop_spec gs _ _ _ _ he
      simp only [Bool.and_eq_true, decide_eq_true_eq] at hdup
      refine ⟨ih.notOrig, ih.fresh, ih.nodup, ih.noInvalid, ih.stored,
        fun it h => weaken (ih.source it h), fun it h => (ih.origSource it h).imp_right weaken,
        ih.origValid, ?_⟩
      intro x hx h1 h2
      rcases List.mem_cons.1 hx with rfl | hx
      · exact absurd hdup.2 h2
      · obtain ⟨g', hg', h⟩ := ih.complete x hx h1 h2
        exact ⟨g', List.mem_cons_of_mem _ hg', h⟩
    rename_i hdup
    split at he
    · rename_i hwl
      have ih := listLoop_spec gs _ _ _ _ he
      simp only [Bool.and_eq_true, decide_eq_true_eq] at hwl
      refine ⟨ih.notOrig, ih.fresh, ih.nodup, ih.noInvalid, ih.stored,
        fun it h => weaken (ih.source it h), fun it h => (ih.origSource it h).imp_right weaken,
        ih.origValid, ?_⟩
      intro x hx h1 h2
      rcases List.mem_cons.1 hx with rfl | hx
      · exact absurd (h1 hwl.1) hwl.2
      · obtain ⟨g', hg', h⟩ := ih.complete x hx h1 h2
        exact ⟨g', List.mem_cons_of_mem _ hg', h⟩
    · rename_i hwl
      have hwl' : o.withLabels ≠ [] → g.cps ∈ o.withLabels := by
        intro h
        by_contra hc
        exact hwl (by simp [h, hc])
      split at he
      · simp at he
      · rename_i it hit
        have hcps := itemOf_cps hit
        split_ifs at he with hkeep hlab
        · -- the original label
          have ih := listLoop_spec gs _ _ _ _ he
          refine ⟨ih.notOrig, ?_, ih.nodup, ih.noInvalid, ?_,
            fun it h => weaken (ih.source it h), ?_, ?_, ?_⟩
          · intro hg x hx hm; exact ih.fresh hg x hx (List.mem_cons_of_mem _ hm)
          · intro _; exact ih.stored (by rintro x hx; cases hx; rw [hcps, hlab])
          · intro x hx
            rcases ih.origSource x hx with h | h
            · cases h; exact Or.inr ⟨g, List.mem_cons_self, hit, hwl'⟩
            · exact Or.inr (weaken h)
          · intro hinv _
            exact ih.origValid hinv (by
              rintro x hx; cases hx
              simpa [hinv] using hkeep)
          · intro x hx h1 h2
            by_cases hxg : x.cps = g.cps
            · refine ⟨g, List.mem_cons_self, hxg.symm, it, hit, Or.inr (Or.inr ⟨hxg.trans hlab, ?_⟩)⟩
              exact listLoop_orig _ _ _ _ _ he rfl
            · rcases List.mem_cons.1 hx with rfl | hx
              · exact absurd rfl hxg
              · obtain ⟨g', hg', h⟩ := ih.complete x hx h1 (by simp [hxg, h2])
                exact ⟨g', List.mem_cons_of_mem _ hg', h⟩
        · split at he
          · simp at he
          · rename_i its0 orig0 hrec
            simp only [Except.ok.injEq, Prod.mk.injEq] at he
            obtain ⟨rfl, rfl⟩ := he
            have ih := listLoop_spec gs _ _ _ _ hrec
            refine ⟨?_, ?_, ?_, ?_, ih.stored, ?_,
              fun it h => (ih.origSource it h).imp_right weaken, ih.origValid, ?_⟩
            · intro x hx
              rcases List.mem_cons.1 hx with rfl | hx
              · rw [hcps]; exact hlab
              · exact ih.notOrig x hx
            · intro hg x hx
              rcases List.mem_cons.1 hx with rfl | hx
              · rw [hcps]; simpa [hg] using hdup
              · intro hm; exact ih.fresh hg x hx (List.mem_cons_of_mem _ hm)
            · intro hg
              rw [List.map_cons, List.nodup_cons]
              refine ⟨?_, ih.nodup hg⟩
              intro hm
              obtain ⟨x, hx, hxe⟩ := List.mem_map.1 hm
              exact ih.fresh hg x hx (by rw [hxe, hcps]; exact List.mem_cons_self)
            · intro hinv x hx
              rcases List.mem_cons.1 hx with rfl | hx
              · simpa [hinv] using hkeep
              · exact ih.noInvalid hinv x hx
            · intro x hx
              rcases List.mem_cons.1 hx with rfl | hx
              · exact ⟨g, List.mem_cons_self, hit, hwl'⟩
              · exact weaken (ih.source x hx)
            · intro x hx h1 h2
              by_cases hxg : x.cps = g.cps
              · exact ⟨g, List.mem_cons_self, hxg.symm, it, hit,
                  Or.inr (Or.inl ⟨by rw [hxg]; exact hlab, List.mem_cons_self⟩)⟩
              · rcases List.mem_cons.1 hx with rfl | hx
                · exact absurd rfl hxg
                · obtain ⟨g', hg', h3, y, hy, h⟩ := ih.complete x hx h1 (by simp [hxg, h2])
                  refine ⟨g', List.mem_cons_of_mem _ hg', h3, y, hy, ?_⟩
                  rcases h with h | ⟨ha, hb⟩ | h
                  · exact Or.inl h
                  · exact Or.inr (Or.inl ⟨ha, List.mem_cons_of_mem _ hb⟩)
                  · exact Or.inr (Or.inr h)
        · -- dropped as invalid
          have ih := listLoop_spec gs _ _ _ _ he
          have hk : it.disp = some "invalid" ∧ o.includeInvalid = false := by
            simpa using hkeep
          refine ⟨ih.notOrig, ?_, ih.nodup, ih.noInvalid, ih.stored,
            fun it h => weaken (ih.source it h), fun it h => (ih.origSource it h).imp_right weaken,
            ih.origValid, ?_⟩
          · intro hg x hx hm; exact ih.fresh hg x hx (List.mem_cons_of_mem _ hm)
          · intro x hx h1 h2
            by_cases hxg : x.cps = g.cps
            · exact ⟨g, List.mem_cons_self, hxg.symm, it, hit, Or.inl ⟨hk.2, hk.1⟩⟩
            · rcases List.mem_cons.1 hx with rfl | hx
              · exact absurd rfl hxg
              · obtain ⟨g', hg', h⟩ := ih.complete x hx h1 (by simp [hxg, h2])
                exact ⟨g', List.mem_cons_of_mem _ hg', h⟩

/-- The listing is the yielded variants followed by the original label. -/
theorem compute_split {env : FullEnv} {r : Repertoire} {actions : List Action} {hasDb : Bool}
    {o : Options} {label : Seq} {out : List Item}
    (he : env.computeDisposition r actions hasDb o label = .ok out) :
    ∃ gs its orig last, env.genVariants r o.hide label = .ok gs ∧ hasDb = true ∧
      label.length ≤ 63 ∧ out = its ++ [last] ∧ last.cps = label ∧
      Listed env r actions o label [] none gs its orig ∧
      (orig = some last ∨ orig = none ∧ last.types = [] ∧ last.invalid = none ∧
        ∃ el, env.testEligible r actions label = .ok el ∧ last.disp = el.disp ∧
          last.idx = el.idx) := by
  unfold computeDisposition at he
  split_ifs at he with h1 h2
  split at he
  · simp at he
  rename_i gs hgs
  split at he
  · simp at he
  · rename_i its it hl
    simp only [Except.ok.injEq] at he
    have hL := listLoop_spec _ _ _ _ _ hl
    exact ⟨gs, its, some it, it, hgs, by simpa using h1, by omega, he.symm,
      hL.stored (by simp) it rfl, hL, Or.inl rfl⟩
  · rename_i its hl
    split at he
    · simp at he
    · rename_i el hel
      simp only [Except.ok.injEq] at he
      have hL := listLoop_spec _ _ _ _ _ hl
      exact ⟨gs, its, none, _, hgs, by simpa using h1, by omega, he.symm, rfl, hL,
        Or.inr ⟨rfl, rfl, rfl, el, hel, rfl, rfl⟩⟩

end Lgr.Props

namespace Lgr.Props.C25
open Repertoire FullEnv

/-- What `compute_label_disposition` yields: the original label exactly once and last; unless the
characters are requested, no label twice; unless invalid variants are requested, no invalid
variant label. -/
theorem listing {env : FullEnv} {r : Repertoire} {actions : List Action} {hasDb : Bool}
    {o : Options} {label : Seq} {out : List Item}
    (he : env.computeDisposition r actions hasDb o label = .ok out) :
    (∃ its last, out = its ++ [last] ∧ last.cps = label ∧ ∀ it ∈ its, it.cps ≠ label) ∧
    (o.generateChars = false → (out.map Item.cps).Nodup) ∧
    (o.includeInvalid = false → ∀ it ∈ out, it.cps ≠ label → it.disp ≠ some "invalid") := by
  obtain ⟨gs, its, orig, last, -, -, -, rfl, hlast, hL, -⟩ := compute_split he
  refine ⟨⟨its, last, rfl, hlast, hL.notOrig⟩, ?_, ?_⟩
  · intro hg
    rw [List.map_append, List.nodup_append]
    refine ⟨hL.nodup hg, by simp, ?_⟩
    intro a ha b hb
    simp only [List.map_cons, List.map_nil, List.mem_singleton] at hb
    obtain ⟨x, hx, rfl⟩ := List.mem_map.1 ha
    rw [hb, hlast]
    exact hL.notOrig x hx
  · intro hinv it hit hne
    rcases List.mem_append.1 hit with h | h
    · exact hL.noInvalid hinv it h
    · simp only [List.mem_singleton] at h
      subst h
      exact absurd hlast hne

/-- Outside the preconditions nothing is listed. -/
theorem preconditions {env : FullEnv} {r : Repertoire} {actions : List Action} {o : Options}
    {label : Seq} :
    env.computeDisposition r actions false o label = .error .apiException ∧
    (63 < label.length → env.computeDisposition r actions true o label =
      .error (.invalidParameter "label")) := by
  constructor
  · simp [computeDisposition]
  · intro h; simp [computeDisposition, h]

/-- Non-vacuity, also showing that the filter on invalid variants acts. -/
example : ((FullEnv.mk ⟨fun _ _ _ _ => .ok true⟩ (fun _ _ => .ok true)
      (fun _ => "Latin")).computeDisposition
    (run {} [.addChar [97] {}, .addChar [98] {}, .addChar [99] {},
      .addVariant [97] { cp := [98], type := some "blocked" },
      .addVariant [97] { cp := [99], type := some "invalid" },
      .addVariant [97] { cp := [100], type := some "blocked" }]) [] true {} [97]).map
      (List.map (fun it => (it.cps, it.disp)))
    = .ok [([98], some "blocked"), ([97], some "valid")] := by decide +kernel

example : ((FullEnv.mk ⟨fun _ _ _ _ => .ok true⟩ (fun _ _ => .ok true)
      (fun _ => "Latin")).computeDisposition
    (run {} [.addChar [97] {}, .addChar [98] {}, .addChar [99] {},
      .addVariant [97] { cp := [98], type := some "blocked" },
      .addVariant [97] { cp := [99], type := some "invalid" },
      .addVariant [97] { cp := [100], type := some "blocked" }]) [] true
      { includeInvalid := true } [97]).map
      (List.map (fun it => (it.cps, it.disp)))
    = .ok [([98], some "blocked"), ([99], some "invalid"), ([100], some "invalid"),
        ([97], some "valid")] := by decide +kernel

end Lgr.Props.C25

namespace Lgr.Props
open Repertoire FullEnv

/-! ## The disposition computed from reflexive mappings -/

theorem reflexiveLoop_spec {env : FullEnv} {label : Seq} {i : Nat} :
    ∀ {vs : List Variant} {d : DispSet} {b : Bool}, env.reflexiveLoop label i vs = .ok (d, b) →
      (∀ t, t ∈ d ↔ ∃ v ∈ vs, v.type = t ∧ CtxHolds env.toEnv v.whenR v.notWhenR v.cp label i) ∧
      (b = true ↔ ∃ v ∈ vs, CtxHolds env.toEnv v.whenR v.notWhenR v.cp label i)
  | [], d, b, he => by simp [reflexiveLoop] at he; simp [he.1, he.2]
  | v :: vs, d, b, he => by
    unfold reflexiveLoop at he
    cases ht : env.testVar v label i with
    | error e => simp [ht] at he
    | ok tb =>
      simp only [ht] at he
      cases hr : env.reflexiveLoop label i vs with
      | error e => simp [hr] at he
      | ok p =>
        obtain ⟨d', b'⟩ := p
        simp only [hr, Except.ok.injEq] at he
        obtain ⟨i1, i2⟩ := reflexiveLoop_spec hr
        cases tb with
        | true =>
          have hc := testContext_true.1 ht
          simp only [if_true, Prod.mk.injEq] at he
          obtain ⟨rfl, rfl⟩ := he
          constructor
          · intro t
            simp only [List.mem_cons, i1, exists_eq_or_imp]
            constructor
            · rintro (rfl | h)
              · exact Or.inl ⟨rfl, hc⟩
              · exact Or.inr h
            · rintro (⟨rfl, _⟩ | h)
              · exact Or.inl rfl
              · exact Or.inr h
          · simp only [true_iff]; exact ⟨v, List.mem_cons_self, hc⟩
        | false =>
          have hc : ¬ CtxHolds env.toEnv v.whenR v.notWhenR v.cp label i := fun h =>
            ctx_not_both h (testContext_false.1 ht)
          simp only [Bool.false_eq_true, if_false, Prod.mk.injEq] at he
          obtain ⟨rfl, rfl⟩ := he
          simp [i1, i2, hc]

/-- A reflexive variant of `c` (mapping it to itself) is valid at offset `i` of `label`. -/
def ReflexiveAt (env : Env) (label : Seq) (i : Nat) (c : CharObj) (v : Variant) : Prop :=
  v ∈ c.getVariants ∧ v.cp = c.cp ∧ CtxHolds env v.whenR v.notWhenR v.cp label i

theorem mem_reflexive {c : CharObj} (h : c.VarWF) (v : Variant) :
    v ∈ c.reflexiveVariants ↔ v ∈ c.getVariants ∧ v.cp = c.cp := by
  unfold CharObj.reflexiveVariants
  rw [CharObj.mem_getVariants h]
  constructor
  · intro hv
    cases hd : dget c.vars c.cp with
    | none => simp [hd] at hv
    | some vs =>
      simp [hd] at hv
      have := h.filed _ (mem_of_dget hd) v hv
      exact ⟨⟨vs, by rw [this]; exact hd, hv⟩, this⟩
  · rintro ⟨⟨vs, h1, h2⟩, h3⟩
    rw [h3] at h1
    simp [h1, h2]

/-- Conditions for a character of the list to count at one position. -/
def Counts (env : Env) (label : Seq) (i : Nat) (rest : Seq) (c : CharObj) : Prop :=
  (c.isSequence = true → c.cp <+: rest) ∧ CharCtx env label i c

theorem dispCharLoop_spec {env : FullEnv} {refl : Bool} {label : Seq} {i : Nat} {rest : Seq} :
    ∀ {cs : List CharObj} {d : DispSet} {b : Bool}, (∀ c ∈ cs, c.VarWF) →
      env.dispCharLoop refl label i rest cs = .ok (d, b) →
      (∀ t, t ∈ d ↔ refl = true ∧ ∃ c ∈ cs, Counts env.toEnv label i rest c ∧
        ∃ v, ReflexiveAt env.toEnv label i c v ∧ v.type = t) ∧
      (b = true ↔ ∀ c ∈ cs, Counts env.toEnv label i rest c →
        refl = true ∧ ∃ v, ReflexiveAt env.toEnv label i c v)
  | [], d, b, _, he => by simp [dispCharLoop] at he; simp [he.1, he.2]
  | c :: cs, d, b, hw, he => by
    have hws := fun x hx => hw x (List.mem_cons_of_mem c hx)
    unfold dispCharLoop at he
    split at he
    · rename_i hs
      have hn : ¬ Counts env.toEnv label i rest c := by
        rintro ⟨h1, _⟩
        simp only [Bool.and_eq_true] at hs
        have := (CharObj.isPrefixOf_iff c rest).2 (h1 hs.1)
        simp [this] at hs
      obtain ⟨i1, i2⟩ := dispCharLoop_spec hws he
      simp [i1, i2, hn]
    rename_i hs
    cases ht : env.testChar c label i with
    | error e => simp [ht] at he
    | ok tb =>
      cases tb with
      | false =>
        simp only [ht] at he
        have hn : ¬ Counts env.toEnv label i rest c := by
          rintro ⟨_, h2⟩
          exact ctx_not_both h2 (testContext_false.1 ht)
        obtain ⟨i1, i2⟩ := dispCharLoop_spec hws he
        simp [i1, i2, hn]
      | true =>
        simp only [ht] at he
        have hy : Counts env.toEnv label i rest c := by
          refine ⟨?_, testContext_true.1 ht⟩
          intro hseq
          rw [← CharObj.isPrefixOf_iff]
          simpa [hseq] using hs
        have hX : ∀ {d0 b0}, (if refl then env.reflexiveLoop label i c.reflexiveVariants
            else .ok ([], false)) = .ok (d0, b0) →
            (∀ t, t ∈ d0 ↔ refl = true ∧ ∃ v, ReflexiveAt env.toEnv label i c v ∧ v.type = t) ∧
            (b0 = true ↔ refl = true ∧ ∃ v, ReflexiveAt env.toEnv label i c v) := by
          intro d0 b0 h0
          cases refl with
          | false =>
            simp only [Bool.false_eq_true, if_false, Except.ok.injEq, Prod.mk.injEq] at h0
            simp [← h0.1, ← h0.2]
          | true =>
            simp only [if_true] at h0
            obtain ⟨j1, j2⟩ := reflexiveLoop_spec h0
            have hm := mem_reflexive (hw c List.mem_cons_self)
            constructor
            · intro t
              rw [j1]
              simp only [hm, ReflexiveAt, true_and]
              constructor
              · rintro ⟨v, ⟨a1, a2⟩, a3, a4⟩; exact ⟨v, ⟨a1, a2, a4⟩, a3⟩
              · rintro ⟨v, ⟨a1, a2, a4⟩, a3⟩; exact ⟨v, ⟨a1, a2⟩, a3, a4⟩
            · rw [j2]
              simp only [hm, ReflexiveAt, true_and, and_assoc]
        revert he hX
        generalize (if refl then env.reflexiveLoop label i c.reflexiveVariants
            else .ok ([], false)) = X
        intro he hX
        cases X with
        | error e => simp at he
        | ok p0 =>
          obtain ⟨d0, b0⟩ := p0
          obtain ⟨j1, j2⟩ := hX rfl
          simp only at he
          cases hr : env.dispCharLoop refl label i rest cs with
          | error e => simp [hr] at he
          | ok p =>
            obtain ⟨d', b'⟩ := p
            simp only [hr, Except.ok.injEq, Prod.mk.injEq] at he
            obtain ⟨rfl, rfl⟩ := he
            obtain ⟨i1, i2⟩ := dispCharLoop_spec hws hr
            constructor
            · intro t
              simp only [List.mem_append, j1, i1, List.mem_cons, exists_eq_or_imp, hy, true_and]
              rw [← and_or_left]
            · simp only [Bool.and_eq_true, j2, i2, List.mem_cons, forall_eq_or_imp, hy, true_imp_iff]

theorem dispLoop_spec {env : FullEnv} {r : Repertoire} (h : WF r) {refl : Bool} {label : Seq} :
    ∀ {i : Nat} {rest : Seq} {d : DispSet} {b : Bool}, rest = label.drop i →
      env.dispLoop r refl label i rest = .ok (d, b) →
      (∀ t, t ∈ d ↔ refl = true ∧ ∃ j c v, i ≤ j ∧ j < label.length ∧ MatchesAt r label j c ∧
        CharCtx env.toEnv label j c ∧ ReflexiveAt env.toEnv label j c v ∧ v.type = t) ∧
      (b = true ↔ ∀ j c, i ≤ j → j < label.length → MatchesAt r label j c →
        CharCtx env.toEnv label j c → refl = true ∧ ∃ v, ReflexiveAt env.toEnv label j c v)
  | i, [], d, b, hrest, he => by
    have hlen : label.length ≤ i := by
      have := congrArg List.length hrest
      simp at this; omega
    simp only [dispLoop, Except.ok.injEq, Prod.mk.injEq] at he
    obtain ⟨rfl, rfl⟩ := he
    constructor
    · intro t
      simp only [List.not_mem_nil, false_iff]
      rintro ⟨_, j, c, v, h1, h2, _⟩; omega
    · simp only [true_iff]
      intro j c h1 h2; omega
  | i, cp :: rest, d, b, hrest, he => by
    have hlen : i < label.length := by
      have := congrArg List.length hrest
      simp at this; omega
    have hrest' : rest = label.drop (i + 1) := by
      have := congrArg (List.drop 1) hrest
      simpa [Nat.add_comm] using this
    unfold dispLoop at he
    have hAt : ∀ {d0 b0}, env.dispAt r refl label i cp rest = .ok (d0, b0) →
        (∀ t, t ∈ d0 ↔ refl = true ∧ ∃ c v, MatchesAt r label i c ∧
          CharCtx env.toEnv label i c ∧ ReflexiveAt env.toEnv label i c v ∧ v.type = t) ∧
        (b0 = true ↔ ∀ c, MatchesAt r label i c →
          CharCtx env.toEnv label i c → refl = true ∧ ∃ v, ReflexiveAt env.toEnv label i c v) := by
      intro d0 b0 h0
      have hstart : ∀ c, MatchesAt r label i c → ∃ t, c.cp = cp :: t := by
        rintro c ⟨hg, hp⟩
        cases hc : c.cp with
        | nil => exact absurd hc (getChar_ne_nil hg)
        | cons y t =>
          rw [hc, ← hrest] at hp
          obtain ⟨u, hu⟩ := hp
          simp at hu
          exact ⟨t, by rw [hu.1]⟩
      unfold dispAt at h0
      cases hcs : r.charsFromPrefix cp with
      | error e =>
        simp only [hcs, Except.ok.injEq, Prod.mk.injEq] at h0
        have hno : ∀ c, ¬ MatchesAt r label i c := fun c hc =>
          charsFromPrefix_error h hcs hc.1 (hstart c hc)
        obtain ⟨rfl, rfl⟩ := h0
        simp [hno]
      | ok cs =>
        simp only [hcs] at h0
        obtain ⟨hmem, -, -⟩ := charsFromPrefix_ok h hcs
        obtain ⟨i1, i2⟩ := dispCharLoop_spec
          (fun c hc => stored_varWF h ((hmem c).1 hc).1) h0
        have hiff : ∀ c, (c ∈ cs ∧ Counts env.toEnv label i (cp :: rest) c) ↔
            (MatchesAt r label i c ∧ CharCtx env.toEnv label i c) := by
          intro c
          rw [hmem]
          constructor
          · rintro ⟨⟨hg, t, ht⟩, h1, h2⟩
            refine ⟨⟨hg, ?_⟩, h2⟩
            rw [← hrest]
            by_cases hs : c.isSequence = true
            · exact h1 hs
            · simp only [CharObj.isSequence, decide_eq_true_eq, ht, List.length_cons] at hs
              have : t = [] := List.length_eq_zero_iff.1 (by omega)
              rw [ht, this]
              exact ⟨rest, rfl⟩
          · rintro ⟨hm, h2⟩
            refine ⟨⟨hm.1, hstart c hm⟩, fun _ => ?_, h2⟩
            rw [hrest]; exact hm.2
        constructor
        · intro t
          rw [i1]
          apply and_congr_right
          intro _
          constructor
          · rintro ⟨c, h1, h2, v, h3, h4⟩
            obtain ⟨a, b⟩ := (hiff c).1 ⟨h1, h2⟩
            exact ⟨c, v, a, b, h3, h4⟩
          · rintro ⟨c, v, a, b, h3, h4⟩
            obtain ⟨h1, h2⟩ := (hiff c).2 ⟨a, b⟩
            exact ⟨c, h1, h2, v, h3, h4⟩
        · rw [i2]
          constructor
          · intro hall c a b
            obtain ⟨h1, h2⟩ := (hiff c).2 ⟨a, b⟩
            exact hall c h1 h2
          · intro hall c h1 h2
            obtain ⟨a, b⟩ := (hiff c).1 ⟨h1, h2⟩
            exact hall c a b
    cases hd : env.dispAt r refl label i cp rest with
    | error e => simp [hd] at he
    | ok p0 =>
      obtain ⟨d0, b0⟩ := p0
      simp only [hd] at he
      obtain ⟨j1, j2⟩ := hAt hd
      cases hr : env.dispLoop r refl label (i + 1) rest with
      | error e => simp [hr] at he
      | ok p =>
        obtain ⟨d', b'⟩ := p
        simp only [hr, Except.ok.injEq, Prod.mk.injEq] at he
        obtain ⟨rfl, rfl⟩ := he
        obtain ⟨i1, i2⟩ := dispLoop_spec h hrest' hr
        constructor
        · intro t
          rw [List.mem_append, j1, i1]
          constructor
          · rintro (⟨h0, c, v, h1⟩ | ⟨h0, j, c, v, h1, h2⟩)
            · exact ⟨h0, i, c, v, le_refl _, hlen, h1⟩
            · exact ⟨h0, j, c, v, by omega, h2⟩
          · rintro ⟨h0, j, c, v, h1, h2, h3⟩
            rcases Nat.eq_or_lt_of_le h1 with rfl | hlt
            · exact Or.inl ⟨h0, c, v, h3⟩
            · exact Or.inr ⟨h0, j, c, v, hlt, h2, h3⟩
        · rw [Bool.and_eq_true, j2, i2]
          constructor
          · rintro ⟨h1, h2⟩ j c hj hjl
            rcases Nat.eq_or_lt_of_le hj with rfl | hlt
            · exact h1 c
            · exact h2 j c hlt hjl
          · intro hall
            exact ⟨fun c => hall i c (le_refl _) hlen, fun j c hj => hall j c (by omega)⟩

/-- A list of types, only for its members: a set. -/
theorem testDisposition_variant {env : FullEnv} {r : Repertoire} (h : WF r) {actions : List Action}
    {label : Seq} {x} (he : env.testDisposition r actions false label = .ok x) :
    applyActions env actions label [] false = .ok x := by
  unfold testDisposition at he
  cases hd : env.dispLoop r false label 0 label with
  | error e => simp [hd] at he
  | ok p =>
    obtain ⟨d, b⟩ := p
    simp only [hd] at he
    obtain ⟨i1, -⟩ := dispLoop_spec h (by simp) hd
    have : d = [] := by
      apply List.eq_nil_iff_forall_not_mem.2
      intro t ht
      have := (i1 t).1 ht
      simp at this
    subst this
    simpa using he

end Lgr.Props

namespace Lgr.Props
open Repertoire FullEnv

/-- The label passes the preliminary test. -/
def Accepted (env : FullEnv) (r : Repertoire) (label : Seq) : Prop :=
  ∃ p, env.prelim r label = .ok p ∧ p.ok = true

/-- The action at index `i` is the first one triggered for the label with types `d`, and its
disposition is `s`. -/
def Decides (env : FullEnv) (actions : List Action) (label : Seq) (d : DispSet) (only : Bool)
    (s : String) (i : Int) : Prop :=
  ∃ pre a post, actions ++ defaultActions = pre ++ a :: post ∧ i = (pre.length : Int) ∧
    s = a.disp ∧ Triggered env a label d only ∧ ∀ b ∈ pre, NotTriggered env b label d only

theorem decides_iff {env : FullEnv} {actions : List Action} {label : Seq} {d : DispSet} {only : Bool}
    {s : String} {i : Int} :
    applyActions env actions label d only = .ok (some s, i) ↔
      Decides env actions label d only s i := C20.first_triggered env actions label d only s i

theorem decides_of_ok {env : FullEnv} {actions : List Action} {label : Seq} {d : DispSet}
    {only : Bool} {x : Option String} {i : Int} (h : applyActions env actions label d only = .ok (x, i)) :
    ∃ s, x = some s ∧ Decides env actions label d only s i := by
  cases hx : x with
  | none => exact absurd hx (C20.never_none env actions label d only _ h)
  | some s => exact ⟨s, rfl, decides_iff.1 (hx ▸ h)⟩

/-- Disposition of a variant label, RFC 7940 section 8.3: invalid when the label does not pass the
preliminary test or is itself invalid, else given by the actions on the types of its mappings. -/
def VariantDisp (env : FullEnv) (r : Repertoire) (actions : List Action) (cps : Seq) (d : DispSet)
    (only : Bool) (disp : Option String) (idx : Int) : Prop :=
  (¬ Accepted env r cps ∧ disp = some "invalid" ∧ idx = -1) ∨
  (Accepted env r cps ∧ Decides env actions cps [] false "invalid" idx ∧ disp = some "invalid") ∨
  (Accepted env r cps ∧ (∃ s i, s ≠ "invalid" ∧ Decides env actions cps [] false s i) ∧
    ∃ s, disp = some s ∧ Decides env actions cps d only s idx)

theorem itemOf_variant {env : FullEnv} {r : Repertoire} (h : WF r) {actions : List Action}
    {label : Seq} {g : Gen} {it : Item} (he : env.itemOf r actions label g = .ok it)
    (hne : g.cps ≠ label) :
    it.types = g.disp ∧ VariantDisp env r actions g.cps g.disp g.only it.disp it.idx := by
  unfold itemOf testEligible at he
  simp only [hne, ne_eq, not_false_eq_true, decide_true, Bool.not_true] at he
  by_cases hnil : g.cps = []
  · simp [hnil] at he
  rw [if_neg hnil] at he
  cases hp : env.prelim r g.cps with
  | error e => simp [hp] at he
  | ok p =>
    simp only [hp] at he
    cases hok : p.ok with
    | false =>
      simp only [hok, Bool.not_false, if_true] at he
      cases he
      refine ⟨rfl, Or.inl ⟨?_, rfl, rfl⟩⟩
      rintro ⟨q, hq, hq2⟩
      rw [hp] at hq; cases hq; simp [hok] at hq2
    | true =>
      have hacc : Accepted env r g.cps := ⟨p, hp, hok⟩
      simp only [hok, Bool.not_true, Bool.false_eq_true, if_false] at he
      cases ht : env.testDisposition r actions false g.cps with
      | error e => simp [ht] at he
      | ok x =>
        obtain ⟨d, i⟩ := x
        simp only [ht] at he
        obtain ⟨s, rfl, hs⟩ := decides_of_ok (testDisposition_variant h ht)
        by_cases hinv : s = "invalid"
        · subst hinv
          simp at he
          cases he
          exact ⟨rfl, Or.inr (Or.inl ⟨hacc, hs, rfl⟩)⟩
        · simp [hinv] at he
          cases ha : applyActions env actions g.cps g.disp g.only with
          | error e => simp [ha] at he
          | ok y =>
            obtain ⟨d2, i2⟩ := y
            obtain ⟨s2, rfl, hs2⟩ := decides_of_ok ha
            simp [ha] at he
            cases he
            exact ⟨rfl, Or.inr (Or.inr ⟨hacc, ⟨s, i, hinv, hs⟩, s2, rfl, hs2⟩)⟩

end Lgr.Props

namespace Lgr.Props.C48
open Repertoire FullEnv

/-- Each variant label listed comes from a rewriting of the label, with the types of the mappings
used, and has the disposition of RFC 7940 section 8.3 for them. -/
theorem listed_disposition {env : FullEnv} {r : Repertoire} (h : WF r) {actions : List Action}
    {hasDb : Bool} {o : Options} {label : Seq} {out : List Item}
    (he : env.computeDisposition r actions hasDb o label = .ok out) {it : Item} (hit : it ∈ out)
    (hne : it.cps ≠ label) :
    ∃ ss only, Rewrites env.toEnv r label ss ∧ it.cps = outOf ss ∧
      (∀ t, t ∈ it.types ↔ ∃ u, t = some u ∧ HasType ss u) ∧
      (only = true ↔ ∀ s ∈ ss, s.2.isSome) ∧
      VariantDisp env r actions it.cps it.types only it.disp it.idx ∧
      (o.withLabels ≠ [] → it.cps ∈ o.withLabels) := by
  obtain ⟨gs, its, orig, last, hgs, -, -, rfl, hlast, hL, -⟩ := compute_split he
  have hit' : it ∈ its := by
    rcases List.mem_append.1 hit with h1 | h1
    · exact h1
    · simp only [List.mem_singleton] at h1
      subst h1; exact absurd hlast hne
  obtain ⟨g, hg, hi, hw⟩ := hL.source it hit'
  have hc := itemOf_cps hi
  obtain ⟨ht, hv⟩ := itemOf_variant h hi (by rw [← hc]; exact hne)
  obtain ⟨ss, h1, h2, -, h3, h4⟩ := C22.generated_sound h hgs hg
  refine ⟨ss, g.only, h1, hc.trans h2, by rw [ht]; exact h3, h4, ?_, by rw [hc]; exact hw⟩
  rw [hc, ht]; exact hv

/-- Every generated variant label is listed, unless it is among the invalid ones and these are not
requested. -/
theorem every_variant_listed {env : FullEnv} {r : Repertoire} (h : WF r) {actions : List Action}
    {hasDb : Bool} {o : Options} {label : Seq} {out : List Item}
    (he : env.computeDisposition r actions hasDb o label = .ok out)
    {gs : List Gen} (hgs : env.genVariants r o.hide label = .ok gs) {g : Gen} (hg : g ∈ gs)
    (hw : o.withLabels ≠ [] → g.cps ∈ o.withLabels) :
    (∃ it ∈ out, it.cps = g.cps) ∨ (o.includeInvalid = false ∧ g.cps ≠ label ∧
      ∃ g' ∈ gs, g'.cps = g.cps ∧ ∃ i, VariantDisp env r actions g.cps g'.disp g'.only
        (some "invalid") i) := by
  obtain ⟨gs', its, orig, last, hgs', -, -, rfl, hlast, hL, horig⟩ := compute_split he
  rw [hgs] at hgs'
  cases hgs'
  by_cases hlab : g.cps = label
  · exact Or.inl ⟨last, by simp, by rw [hlast, hlab]⟩
  · obtain ⟨g', hg', hgg, it, hit, h1 | ⟨_, h1⟩ | ⟨h1, _⟩⟩ := hL.complete g hg hw (by simp)
    · right
      obtain ⟨_, hv⟩ := itemOf_variant h hit (by rw [hgg]; exact hlab)
      refine ⟨h1.1, hlab, g', hg', hgg, it.idx, ?_⟩
      rw [← hgg, ← h1.2]; exact hv
    · exact Or.inl ⟨it, List.mem_append.2 (Or.inl h1), by rw [itemOf_cps hit, hgg]⟩
    · exact absurd h1 hlab

end Lgr.Props.C48

namespace Lgr.Props.C49
open Repertoire FullEnv

/-- Exact outcome of `test_label_eligible` on a label passing the preliminary test: the action
decided by the types of the reflexive variants valid in place, of all repertoire characters
occurring in valid context anywhere in the label. -/
theorem reflexive_disposition {env : FullEnv} {r : Repertoire} (h : WF r) {actions : List Action}
    {label : Seq} {el : Eligible} (he : env.testEligible r actions label = .ok el)
    (hacc : Accepted env r label) :
    ∃ d only s, (∀ t, t ∈ d ↔ ∃ j c v, j < label.length ∧ MatchesAt r label j c ∧
        CharCtx env.toEnv label j c ∧ ReflexiveAt env.toEnv label j c v ∧ v.type = t) ∧
      (only = true ↔ d ≠ [] ∧ ∀ j c, j < label.length → MatchesAt r label j c →
        CharCtx env.toEnv label j c → ∃ v, ReflexiveAt env.toEnv label j c v) ∧
      Decides env actions label d only s el.idx ∧ el.disp = some s ∧
      (el.ok = true ↔ s ≠ "invalid") := by
  obtain ⟨p, hp, hok⟩ := hacc
  unfold testEligible at he
  by_cases hnil : label = []
  · simp [hnil] at he
  simp only [if_neg hnil, hp, hok, Bool.not_true, Bool.not_false, Bool.false_eq_true, if_false] at he
  unfold testDisposition at he
  cases hd : env.dispLoop r true label 0 label with
  | error e => simp [hd] at he
  | ok x =>
    obtain ⟨d, b⟩ := x
    simp only [hd] at he
    obtain ⟨i1, i2⟩ := dispLoop_spec h (by simp) hd
    cases ha : applyActions env actions label d (if d ≠ [] then b else false) with
    | error e => simp only [ha] at he; simp at he
    | ok y =>
      obtain ⟨z, i⟩ := y
      obtain ⟨s, rfl, hs⟩ := decides_of_ok ha
      simp only [ha] at he
      refine ⟨d, (if d ≠ [] then b else false), s, ?_, ?_, ?_, ?_⟩
      · intro t; rw [i1]; simp
      · by_cases hdn : d = []
        · simp [hdn]
        · rw [if_pos hdn, i2]
          simp [hdn]
      · by_cases hi : s = "invalid"
        · simp [hi] at he; rw [← he]; exact hs
        · simp [hi] at he; rw [← he]; exact hs
      · by_cases hi : s = "invalid"
        · simp [hi] at he; rw [← he]; simp [hi]
        · simp [hi] at he; rw [← he]; simp [hi]

/-- Rejected labels are reported as invalid, with the index -1. -/
theorem rejected_disposition {env : FullEnv} {r : Repertoire} {actions : List Action} {b : Bool}
    {label : Seq} {el : Eligible} (he : env.testEligible r actions label b = .ok el)
    (hacc : ¬ Accepted env r label) : el.ok = false ∧ el.disp = some "invalid" ∧ el.idx = -1 := by
  unfold testEligible at he
  by_cases hnil : label = []
  · simp [hnil] at he
  rw [if_neg hnil] at he
  cases hp : env.prelim r label with
  | error e => simp [hp] at he
  | ok p =>
    have : p.ok = false := by
      rw [Bool.eq_false_iff]; intro h; exact hacc ⟨p, hp, h⟩
    simp only [hp, this, Bool.not_false, if_true] at he
    cases he
    exact ⟨rfl, rfl, rfl⟩

/-- Full property: the types are those of the reflexive variants of the characters the label is
made of. -/
def FromSegmentation : Prop :=
  ∀ (env : FullEnv) (ops : List Op) (actions : List Action) (label : Seq) (p : Env.Prelim)
    (el : Eligible), env.prelim (run {} ops) label = .ok p → p.ok = true →
    env.testEligible (run {} ops) actions label = .ok el →
    ∃ d only s, (∀ t, t ∈ d ↔ ∃ pre c post v, p.chars = pre ++ c :: post ∧
        ReflexiveAt env.toEnv label (pre.flatMap CharObj.cp).length c v ∧ v.type = t) ∧
      Decides env actions label d only s el.idx ∧ el.disp = some s

/-- It is false: the label `ab`, accepted as the sequence `ab` without variants, is invalid because
of a reflexive variant of type invalid of the entry `b`, which the label is not made of. -/
theorem inner_character_counts : ¬ FromSegmentation := by
  intro h
  obtain ⟨d, only, s, hd, hdec, hs⟩ := h ⟨⟨fun _ _ _ _ => .ok true⟩, fun _ _ => .ok true, fun _ => "Latin"⟩
    [.addChar [97, 98] {}, .addChar [98] {},
      .addVariant [98] { cp := [98], type := some "invalid" }] [] [97, 98]
    ⟨true, [97, 98], [], [{ cp := [97, 98] }]⟩ ⟨false, [], [], some "invalid", 0, [{ cp := [97, 98] }]⟩
    (by decide +kernel) rfl (by decide +kernel)
  have : d = [] := by
    apply List.eq_nil_iff_forall_not_mem.2
    intro t ht
    obtain ⟨pre, c, post, v, h1, h2, _⟩ := (hd t).1 ht
    cases pre with
    | nil => simp at h1; rw [← h1.1] at h2; simp [ReflexiveAt, CharObj.getVariants, sortAsc] at h2
    | cons a pre => simp at h1
  subst this
  simp only [Option.some.injEq] at hs
  subst hs
  have := decides_iff.2 hdec
  revert this
  cases only <;> decide +kernel

/-- With single code point entries the types are those of the characters the label is made of.
Missing for the full property: sequences, for which it is false. -/
theorem from_segmentation_partial {env : FullEnv} {r : Repertoire} (h : WF r)
    (h1 : ∀ c, r.getChar c.cp = .ok c → c.len = 1) {actions : List Action} {label : Seq}
    {p : Env.Prelim} {el : Eligible} (hp : env.prelim r label = .ok p) (hok : p.ok = true)
    (he : env.testEligible r actions label = .ok el) :
    ∃ d only s, (∀ t, t ∈ d ↔ ∃ pre c post v, p.chars = pre ++ c :: post ∧
        ReflexiveAt env.toEnv label (pre.flatMap CharObj.cp).length c v ∧ v.type = t) ∧
      (only = true ↔ d ≠ [] ∧ ∀ pre c post, p.chars = pre ++ c :: post →
        ∃ v, ReflexiveAt env.toEnv label (pre.flatMap CharObj.cp).length c v) ∧
      Decides env actions label d only s el.idx ∧ el.disp = some s := by
  obtain ⟨hseg, -, -, -⟩ := C13.accepted_is_segmentation h hp hok
  obtain ⟨d, only, s, i1, i2, i3, i4, _⟩ := reflexive_disposition h he ⟨p, hp, hok⟩
  have hlen : ∀ cs : List CharObj, (∀ c ∈ cs, r.getChar c.cp = .ok c) →
      (cs.flatMap CharObj.cp).length = cs.length := by
    intro cs
    induction cs with
    | nil => simp
    | cons c cs ih =>
      intro hc
      have h2 := h1 c (hc c List.mem_cons_self)
      simp only [CharObj.len] at h2
      simp only [List.flatMap_cons, List.length_append, List.length_cons, h2,
        ih (fun x hx => hc x (List.mem_cons_of_mem _ hx))]
      omega
  -- what occurs in the label are its segments
  have key : ∀ j c, (j < label.length ∧ MatchesAt r label j c ∧ CharCtx env.toEnv label j c) ↔
      ∃ pre post, p.chars = pre ++ c :: post ∧ (pre.flatMap CharObj.cp).length = j := by
    intro j c
    constructor
    · rintro ⟨hj, ⟨hg, hpre⟩, _⟩
      have hl := hlen p.chars hseg.stored
      rw [hseg.concat] at hl
      have hjc : j < p.chars.length := by omega
      have hsplit : p.chars = p.chars.take j ++ p.chars[j] :: p.chars.drop (j + 1) := by
        simp
      have hlt := hlen (p.chars.take j) (fun x hx => hseg.stored x (List.mem_of_mem_take hx))
      have hlt' : ((p.chars.take j).flatMap CharObj.cp).length = j := by
        rw [hlt, List.length_take]; omega
      refine ⟨p.chars.take j, p.chars.drop (j + 1), ?_, hlt'⟩
      have hcc : p.chars[j] = c := by
        have hgj := hseg.stored _ (List.getElem_mem hjc)
        have hcat := hseg.concat
        rw [hsplit, List.flatMap_append, List.flatMap_cons] at hcat
        rw [← hcat, List.drop_left' hlt'] at hpre
        exact eq_of_prefix_len hgj hg ⟨_, rfl⟩ hpre (by rw [h1 _ hgj, h1 _ hg])
      rw [← hcc]; exact hsplit
    · rintro ⟨pre, post, hs, rfl⟩
      have hg := hseg.stored c (by rw [hs]; simp)
      have hcat := hseg.concat
      rw [hs, List.flatMap_append, List.flatMap_cons] at hcat
      have hpos := List.length_pos_iff.2 (getChar_ne_nil hg)
      refine ⟨?_, ⟨hg, ?_⟩, hseg.context pre c post hs⟩
      · rw [← hcat]; simp; omega
      · rw [← hcat, List.drop_left]; exact ⟨_, rfl⟩
  refine ⟨d, only, s, ?_, ?_, i3, i4⟩
  · intro t
    rw [i1]
    constructor
    · rintro ⟨j, c, v, a1, a2, a3, a4, a5⟩
      obtain ⟨pre, post, b1, rfl⟩ := (key j c).1 ⟨a1, a2, a3⟩
      exact ⟨pre, c, post, v, b1, a4, a5⟩
    · rintro ⟨pre, c, post, v, b1, a4, a5⟩
      obtain ⟨a1, a2, a3⟩ := (key _ c).2 ⟨pre, post, b1, rfl⟩
      exact ⟨_, c, v, a1, a2, a3, a4, a5⟩
  · rw [i2]
    apply and_congr_right
    intro _
    constructor
    · intro hall pre c post b1
      obtain ⟨a1, a2, a3⟩ := (key _ c).2 ⟨pre, post, b1, rfl⟩
      exact hall _ c a1 a2 a3
    · intro hall j c a1 a2 a3
      obtain ⟨pre, post, b1, rfl⟩ := (key j c).1 ⟨a1, a2, a3⟩
      exact hall pre c post b1

/-- Non-vacuity: a reflexive variant of type blocked decides the disposition of a label. -/
example : ((FullEnv.mk ⟨fun _ _ _ _ => .ok true⟩ (fun _ _ => .ok true)
      (fun _ => "Latin")).testEligible
    (run {} [.addChar [97] {}, .addVariant [97] { cp := [97], type := some "blocked" }]) [] [97]).map
      (fun e => (e.ok, e.disp, e.idx))
    = .ok (true, some "blocked", 1) := by decide +kernel

end Lgr.Props.C49

namespace Lgr.Props.C24
open Repertoire FullEnv

/-- What can stand for a character: itself or one of its variants. -/
def options (c : CharObj) : List Seq :=
  c.cp :: (c.getVariants.filter (fun v => decide (v.cp ≠ c.cp))).map Variant.cp

/-- All ways of putting something for each character. -/
def combos : List CharObj → List Seq
  | [] => [[]]
  | c :: cs => (options c).flatMap (fun o => (combos cs).map (fun x => o ++ x))

theorem combos_length : ∀ cs : List CharObj,
    (combos cs).length = (cs.map (fun c => (nonReflexive c).length + 1)).prod
  | [] => rfl
  | c :: cs => by
    have : ∀ (l : List Seq) (n : Nat), (l.map (fun _ => n)).sum = l.length * n := by
      intro l n; simp
    simp only [combos, List.length_flatMap, List.length_map, combos_length cs, this]
    simp [options, nonReflexive]

theorem mem_combos {ss : List Step} (hv : ∀ s ∈ ss, ∀ v, s.2 = some v → v ∈ s.1.getVariants) :
    outOf ss ∈ combos (ss.map (fun s => s.1)) := by
  induction ss with
  | nil => simp [outOf, combos]
  | cons s ss ih =>
    simp only [List.map_cons, combos, List.mem_flatMap, List.mem_map]
    refine ⟨s.out, ?_, outOf ss, ih (fun t ht => hv t (List.mem_cons_of_mem _ ht)), rfl⟩
    unfold options Step.out
    cases ho : s.2 with
    | none => exact List.mem_cons_self
    | some v =>
      by_cases hr : v.cp = s.1.cp
      · simp only [hr]; exact List.mem_cons_self
      · exact List.mem_cons_of_mem _ (List.mem_map.2
          ⟨v, List.mem_filter.2 ⟨hv s List.mem_cons_self v ho, by simpa using hr⟩, rfl⟩)

/-- Every combination is the output of segments over the given characters, each kept or replaced
by a variant. -/
theorem combos_steps : ∀ {cs : List CharObj} {x : Seq}, x ∈ combos cs →
    ∃ ss : List Step, ss.map (fun s => s.1) = cs ∧ outOf ss = x ∧
      ∀ s ∈ ss, ∀ v, s.2 = some v → v ∈ s.1.getVariants
  | [], x, h => by
    simp only [combos, List.mem_singleton] at h
    exact ⟨[], rfl, by simp [outOf, h], by simp⟩
  | c :: cs, x, h => by
    simp only [combos, List.mem_flatMap, List.mem_map] at h
    obtain ⟨o, ho, y, hy, rfl⟩ := h
    obtain ⟨ss, h1, h2, h3⟩ := combos_steps hy
    rcases List.mem_cons.1 ho with rfl | ho
    · refine ⟨(c, none) :: ss, by simp [h1], by rw [← h2]; rfl, ?_⟩
      intro s hs v hv
      rcases List.mem_cons.1 hs with rfl | hs
      · simp at hv
      · exact h3 s hs v hv
    · obtain ⟨w, hw, rfl⟩ := List.mem_map.1 ho
      refine ⟨(c, some w) :: ss, by simp [h1], by rw [← h2]; rfl, ?_⟩
      intro s hs v hv
      rcases List.mem_cons.1 hs with rfl | hs
      · simp only [Option.some.injEq] at hv; subst hv; exact (List.mem_filter.1 hw).1
      · exact h3 s hs v hv

/-- In a prefix free repertoire there is at most one way of segmenting a label. -/
theorem segments_unique {r : Repertoire} (hpf : C14.PrefixFree r) :
    ∀ {cs ds : List CharObj}, (∀ c ∈ cs, r.getChar c.cp = .ok c) → (∀ d ∈ ds, r.getChar d.cp = .ok d) →
      cs.flatMap CharObj.cp = ds.flatMap CharObj.cp → cs = ds
  | [], [], _, _, _ => rfl
  | [], d :: ds, _, hd, he => by
    simp only [List.flatMap_nil, List.flatMap_cons, List.nil_eq_append_iff] at he
    exact absurd he.1 (getChar_ne_nil (hd d List.mem_cons_self))
  | c :: cs, [], hc, _, he => by
    simp only [List.flatMap_nil, List.flatMap_cons, List.append_eq_nil_iff] at he
    exact absurd he.1 (getChar_ne_nil (hc c List.mem_cons_self))
  | c :: cs, d :: ds, hc, hd, he => by
    simp only [List.flatMap_cons] at he
    have hgc := hc c List.mem_cons_self
    have hgd := hd d List.mem_cons_self
    have hcd : c = d := by
      rcases List.prefix_or_prefix_of_prefix (l₁ := c.cp) (l₂ := d.cp) ⟨_, he⟩ ⟨_, rfl⟩ with h | h
      · exact hpf c d hgc hgd h
      · exact (hpf d c hgd hgc h).symm
    subst hcd
    rw [List.append_cancel_left_eq] at he
    rw [segments_unique hpf (fun x hx => hc x (List.mem_cons_of_mem _ hx))
      (fun x hx => hd x (List.mem_cons_of_mem _ hx)) he]

theorem allSteps_valid {env : Env} : ∀ {pfx : Seq} {ss : List Step}, AllSteps (ValidStep env) pfx ss →
    ∀ s ∈ ss, ∀ v, s.2 = some v → v ∈ s.1.getVariants
  | _, [], _ => by simp
  | pfx, t :: ss, ⟨h1, h2⟩ => by
    intro s hs v hv
    rcases List.mem_cons.1 hs with rfl | hs
    · exact (h1 v hv).1
    · exact allSteps_valid h2 s hs v hv

theorem listed_in_combos {env : FullEnv} {r : Repertoire} (h : WF r) (hpf : C14.PrefixFree r)
    {actions : List Action} {hasDb : Bool} {o : Options} {label : Seq} {p : Env.Prelim}
    (hp : env.prelim r label = .ok p) (hok : p.ok = true) {out : List Item}
    (he : env.computeDisposition r actions hasDb o label = .ok out) :
    ∀ x ∈ out.map Item.cps, x ∈ combos p.chars := by
  obtain ⟨hseg, -, -, -⟩ := C13.accepted_is_segmentation h hp hok
  intro x hx
  obtain ⟨it, hit, rfl⟩ := List.mem_map.1 hx
  by_cases hne : it.cps = label
  · rw [hne, ← hseg.concat]
    have := mem_combos (ss := p.chars.map (fun c => (c, none))) (by
      intro s hs v hv
      obtain ⟨c, _, rfl⟩ := List.mem_map.1 hs
      simp at hv)
    simpa [outOf, List.flatMap_map, Step.out, Function.comp_def] using this
  · obtain ⟨ss, only, hr, hc, -⟩ := C48.listed_disposition h he hit hne
    rw [hc]
    have hu : ss.map (fun s => s.1) = p.chars := by
      apply segments_unique hpf
      · intro c hc
        obtain ⟨s, hs, rfl⟩ := List.mem_map.1 hc
        exact hr.stored s hs
      · exact hseg.stored
      · rw [hseg.concat, ← hr.concat]; simp [origOf, List.flatMap_map]
    rw [← hu]
    exact mem_combos (allSteps_valid hr.valid)

/-- The property's upper bound at full strength. -/
def UpperBound : Prop :=
  ∀ (env : FullEnv) (ops : List Op) (actions : List Action) (o : Options) (label : Seq)
    (p : Env.Prelim) (out : List Item) (n : Nat),
    env.prelim (run {} ops) label = .ok p → p.ok = true →
    env.estimate (run {} ops) o.hide label = .ok n →
    env.computeDisposition (run {} ops) actions true o label = .ok out →
    (out.map Item.cps).dedup.length ≤ n

/-- Upper bound for prefix free repertoires, without script hiding. Missing for the full property:
repertoires where an entry is a prefix of another one, and script hiding; it is false for both. -/
theorem upper_bound_partial {env : FullEnv} {r : Repertoire} (h : WF r) (hpf : C14.PrefixFree r)
    {actions : List Action} {hasDb : Bool} {o : Options} {label : Seq} {p : Env.Prelim}
    (hp : env.prelim r label = .ok p) (hok : p.ok = true) {out : List Item}
    (he : env.computeDisposition r actions hasDb o label = .ok out) {n : Nat}
    (hn : env.estimate r false label = .ok n) :
    (out.map Item.cps).dedup.length ≤ n := by
  simp only [estimate, hp, Bool.false_eq_true, if_false, Except.ok.injEq] at hn
  rw [← hn, ← combos_length]
  apply List.Subperm.length_le
  apply List.subperm_of_subset (List.nodup_dedup _)
  intro x hx
  exact listed_in_combos h hpf hp hok he x (List.mem_dedup.1 hx)

/-- The upper bound is false in general: `a`, `b` with a variant each and the sequence `ab` without:
the label `ab` is estimated at 1 and has four labels. -/
theorem estimate_too_low : ¬ UpperBound := by
  intro h
  have := h ⟨⟨fun _ _ _ _ => .ok true⟩, fun _ _ => .ok true, fun _ => "Latin"⟩
    [.addChar [97] {}, .addChar [98] {}, .addChar [120] {}, .addChar [121] {}, .addChar [97, 98] {},
      .addVariant [97] { cp := [120] }, .addVariant [98] { cp := [121] }] [] {} [97, 98]
    ⟨true, [97, 98], [], [{ cp := [97, 98] }]⟩
    [⟨[97, 121], some "valid", some [], 4, [], [[97], [121]]⟩,
     ⟨[120, 98], some "valid", some [], 4, [], [[120], [98]]⟩,
     ⟨[120, 121], some "valid", some [], 4, [], [[120], [121]]⟩,
     ⟨[97, 98], some "valid", some [], 4, [], [[97], [98]]⟩] 1
    (by decide +kernel) rfl (by decide +kernel) (by decide +kernel)
  revert this
  decide

/-- With script hiding it is false even for single code points: a Latin label with Katakana variants
for both letters and a Han one for the second. -/
theorem hidden_estimate_too_low : ∃ (env : FullEnv) (ops : List Op) (label : Seq) (out : List Item),
    (∀ op ∈ ops, ∀ cp a, op = .addChar cp a → cp.length = 1) ∧
    env.estimate (run {} ops) true label = .ok 2 ∧
    env.computeDisposition (run {} ops) [] true { hide := true, includeInvalid := true } label =
      .ok out ∧
    (out.map Item.cps).dedup.length = 4 := by
  refine ⟨⟨⟨fun _ _ _ _ => .ok true⟩, fun _ _ => .ok true,
      fun n => if n < 200 then "Latin" else if n < 300 then "Katakana" else "Han"⟩,
    [.addChar [97] {}, .addChar [98] {}, .addVariant [97] { cp := [200] },
      .addVariant [98] { cp := [201] }, .addVariant [98] { cp := [300] }], [97, 98],
    [⟨[200, 98], some "invalid", some [(200, none)], -1, [], [[200], [98]]⟩,
     ⟨[200, 201], some "invalid", some [(200, none), (201, none)], -1, [], [[200], [201]]⟩,
     ⟨[200, 300], some "invalid", some [(200, none), (300, none)], -1, [], [[200], [300]]⟩,
     ⟨[97, 98], some "valid", some [], 4, [], [[97], [98]]⟩], ?_, ?_, ?_, ?_⟩
  · intro op hop cp a hc
    subst hc
    simp at hop
    rcases hop with ⟨rfl, _⟩ | ⟨rfl, _⟩ <;> rfl
  · decide +kernel
  · decide +kernel
  · decide +kernel

theorem options_nodup {c : CharObj} (hw : c.VarWF)
    (hu : ∀ v ∈ c.getVariants, v.whenR = none ∧ v.notWhenR = none) : (options c).Nodup := by
  unfold options
  rw [List.nodup_cons]
  constructor
  · intro hm
    obtain ⟨v, hv, he⟩ := List.mem_map.1 hm
    have := (List.mem_filter.1 hv).2
    simp [he] at this
  · apply List.Nodup.of_map (fun cp => (cp, (none : Option String), (none : Option String)))
    rw [List.map_map]
    have hk := C08.getVariants_keys_nodup hw
    have hs : ((c.getVariants.filter (fun v => decide (v.cp ≠ c.cp))).map Variant.key).Nodup :=
      hk.sublist (List.Sublist.map _ List.filter_sublist)
    have : (c.getVariants.filter (fun v => decide (v.cp ≠ c.cp))).map Variant.key =
        (c.getVariants.filter (fun v => decide (v.cp ≠ c.cp))).map
          ((fun cp => (cp, (none : Option String), (none : Option String))) ∘ Variant.cp) := by
      apply List.map_congr_left
      intro v hv
      obtain ⟨h1, h2⟩ := hu v (List.mem_filter.1 hv).1
      simp [Variant.key, h1, h2]
    rw [← this]; exact hs

theorem combos_nodup : ∀ {cs : List CharObj}, (∀ c ∈ cs, c.VarWF) →
    (∀ c ∈ cs, ∀ v ∈ c.getVariants, v.whenR = none ∧ v.notWhenR = none) →
    (∀ c ∈ cs, ∀ o ∈ options c, o.length = 1) → (combos cs).Nodup
  | [], _, _, _ => by simp [combos]
  | c :: cs, h1, h2, h3 => by
    have ih := combos_nodup (fun x hx => h1 x (List.mem_cons_of_mem _ hx))
      (fun x hx => h2 x (List.mem_cons_of_mem _ hx)) (fun x hx => h3 x (List.mem_cons_of_mem _ hx))
    unfold combos
    rw [List.nodup_flatMap]
    constructor
    · intro o _
      exact ih.map (fun a b hab => List.append_cancel_left hab)
    · refine (options_nodup (h1 c List.mem_cons_self) (h2 c List.mem_cons_self)).pairwise_of_forall_ne ?_
      intro a ha b hb hab x hx hy
      obtain ⟨u, _, rfl⟩ := List.mem_map.1 hx
      obtain ⟨w, _, he⟩ := List.mem_map.1 hy
      have hla := h3 c List.mem_cons_self a ha
      have hlb := h3 c List.mem_cons_self b hb
      exact hab (List.append_inj_left he (by rw [hla, hlb])).symm

/-- The equality of the property at full strength: unconditional variants and single code point
entries. -/
def EqualityHolds : Prop :=
  ∀ (env : FullEnv) (ops : List Op) (actions : List Action) (label : Seq)
    (p : Env.Prelim) (out : List Item) (n : Nat),
    (∀ c, (run {} ops).getChar c.cp = .ok c → c.len = 1 ∧
      ∀ v ∈ c.getVariants, v.whenR = none ∧ v.notWhenR = none) →
    env.prelim (run {} ops) label = .ok p → p.ok = true →
    env.estimate (run {} ops) false label = .ok n →
    env.computeDisposition (run {} ops) actions true { includeInvalid := true } label = .ok out →
    out.length = n

/-- Equality (invalid included) for single code point entries with unconditional single code point
variants. Missing for the full property: variants that are sequences, for which it is false. -/
theorem exact_estimate_partial {env : FullEnv} {r : Repertoire} (h : WF r)
    (h1 : ∀ c, r.getChar c.cp = .ok c → c.len = 1 ∧
      ∀ v ∈ c.getVariants, v.cp.length = 1 ∧ v.whenR = none ∧ v.notWhenR = none)
    {actions : List Action} {label : Seq} {p : Env.Prelim}
    (hp : env.prelim r label = .ok p) (hok : p.ok = true) {out : List Item}
    (he : env.computeDisposition r actions true { includeInvalid := true } label = .ok out) {n : Nat}
    (hn : env.estimate r false label = .ok n) : out.length = n := by
  have hpf : C14.PrefixFree r := C14.prefixFree_of_single (fun c hc => (h1 c hc).1)
  obtain ⟨hseg, -, -, -⟩ := C13.accepted_is_segmentation h hp hok
  have hsub := listed_in_combos h hpf hp hok he
  obtain ⟨⟨its, last, hout, hlast, _⟩, hnd, _⟩ := C25.listing he
  have hcn : (combos p.chars).Nodup := by
    apply combos_nodup
    · exact fun c hc => stored_varWF h (hseg.stored c hc)
    · exact fun c hc v hv => ((h1 c (hseg.stored c hc)).2 v hv).2
    · intro c hc o ho
      rcases List.mem_cons.1 ho with rfl | ho
      · exact (h1 c (hseg.stored c hc)).1
      · obtain ⟨v, hv, rfl⟩ := List.mem_map.1 ho
        exact ((h1 c (hseg.stored c hc)).2 v (List.mem_filter.1 hv).1).1
  have hsup : ∀ x ∈ combos p.chars, x ∈ out.map Item.cps := by
    intro x hx
    obtain ⟨ss, h2, rfl, h4⟩ := combos_steps hx
    have hst : ∀ s ∈ ss, r.getChar s.1.cp = .ok s.1 := by
      intro s hs
      apply hseg.stored
      rw [← h2]; exact List.mem_map.2 ⟨s, hs, rfl⟩
    have hcat : origOf ss = label := by
      rw [← hseg.concat, ← h2]; simp [origOf, List.flatMap_map]
    by_cases hm : ∃ s ∈ ss, s.2.isSome = true
    · obtain ⟨gs, _, _, _, hgs, _⟩ := compute_split he
      have hval : ∀ {pfx : Seq} {ts : List Step}, (∀ s ∈ ts, r.getChar s.1.cp = .ok s.1) →
          (∀ s ∈ ts, ∀ v, s.2 = some v → v ∈ s.1.getVariants) →
          AllSteps (ValidStep env.toEnv) pfx ts := by
        intro pfx ts
        induction ts generalizing pfx with
        | nil => intro _ _; trivial
        | cons t ts ih =>
          intro a b
          refine ⟨?_, ih (fun s hs => a s (List.mem_cons_of_mem _ hs))
            (fun s hs => b s (List.mem_cons_of_mem _ hs))⟩
          intro v hv
          have hvm := b t List.mem_cons_self v hv
          obtain ⟨-, h5, h6⟩ := (h1 _ (a t List.mem_cons_self)).2 v hvm
          exact ⟨hvm, by simp [VarCtx, CtxHolds, h5, h6]⟩
      obtain ⟨g, hg, hgc⟩ := C23.no_variant_missed_partial h (C23.extend_of_prefixFree hpf) hgs
        ⟨hcat, hst, hval hst h4⟩ hm
      rcases C48.every_variant_listed h he hgs hg (by simp) with ⟨it, hit, hc⟩ | ⟨hf, _⟩
      · exact List.mem_map.2 ⟨it, hit, by rw [hc, hgc]⟩
      · simp at hf
    · have : outOf ss = origOf ss := by
        unfold outOf origOf
        apply List.flatMap_congr
        intro s hs
        cases ho : s.2 with
        | none => simp [Step.out, ho]
        | some v => exact absurd ⟨s, hs, by simp [ho]⟩ hm
      rw [this, hcat, ← hlast]
      exact List.mem_map.2 ⟨last, by rw [hout]; simp, rfl⟩
  simp only [estimate, hp, Bool.false_eq_true, if_false, Except.ok.injEq] at hn
  rw [← hn, ← combos_length, ← List.length_map (f := Item.cps)]
  exact le_antisymm (List.subperm_of_subset (hnd rfl) hsub).length_le
    (List.subperm_of_subset hcn hsup).length_le

/-- With variants that are sequences the equality is false: two permutations of `ab` coincide. -/
theorem sequence_variants_coincide : ¬ EqualityHolds := by
  intro h
  have hst : ∀ c, (run {} [.addChar [97] {}, .addChar [98] {},
      .addVariant [97] { cp := [120] }, .addVariant [97] { cp := [120, 121] },
      .addVariant [98] { cp := [121, 122] }, .addVariant [98] { cp := [122] }]).getChar c.cp = .ok c →
      c = { cp := [97], vars := [([120], [{ cp := [120] }]), ([120, 121], [{ cp := [120, 121] }])] } ∨
      c = { cp := [98], vars := [([121, 122], [{ cp := [121, 122] }]), ([122], [{ cp := [122] }])] } := by
    intro c hc
    obtain ⟨i, t, hcp, hm⟩ : ∃ i t, c.cp = i :: t ∧ c ∈ (run {} [.addChar [97] {}, .addChar [98] {},
      .addVariant [97] { cp := [120] }, .addVariant [97] { cp := [120, 121] },
      .addVariant [98] { cp := [121, 122] }, .addVariant [98] { cp := [122] }]).bucket i := by
      cases hcp : c.cp with
      | nil => rw [hcp] at hc; simp [getChar] at hc
      | cons i t => exact ⟨i, t, rfl, (getChar_iff_bucket (C01.wf_run _) hcp).1 hc⟩
    obtain ⟨q, hq, -, hcq⟩ := bucket_mem hm
    have hd : (run {} [.addChar [97] {}, .addChar [98] {},
      .addVariant [97] { cp := [120] }, .addVariant [97] { cp := [120, 121] },
      .addVariant [98] { cp := [121, 122] }, .addVariant [98] { cp := [122] }]).dict =
      [(97, [{ cp := [97], vars := [([120], [{ cp := [120] }]), ([120, 121], [{ cp := [120, 121] }])] }]),
       (98, [{ cp := [98], vars := [([121, 122], [{ cp := [121, 122] }]), ([122], [{ cp := [122] }])] }])] := by
      decide +kernel
    rw [hd] at hq
    simp only [List.mem_cons, List.not_mem_nil, or_false] at hq
    rcases hq with rfl | rfl
    · left; simpa using hcq
    · right; simpa using hcq
  have := h ⟨⟨fun _ _ _ _ => .ok true⟩, fun _ _ => .ok true, fun _ => "Latin"⟩
    [.addChar [97] {}, .addChar [98] {},
      .addVariant [97] { cp := [120] }, .addVariant [97] { cp := [120, 121] },
      .addVariant [98] { cp := [121, 122] }, .addVariant [98] { cp := [122] }] [] [97, 98] _ _ 9
    (by
      intro c hc
      rcases hst c hc with rfl | rfl
      · exact ⟨rfl, by decide⟩
      · exact ⟨rfl, by decide⟩)
    (by rfl) (by rfl) (by decide +kernel) (by rfl)
  simp at this

/-- Non-vacuity of the bound and of the equality. -/
example : ((FullEnv.mk ⟨fun _ _ _ _ => .ok true⟩ (fun _ _ => .ok true) (fun _ => "Latin")).estimate
    (run {} [.addChar [97] {}, .addChar [98] {}, .addVariant [97] { cp := [120] },
      .addVariant [97] { cp := [97] }, .addVariant [97] { cp := [121] },
      .addVariant [98] { cp := [122] }]) false [97, 98]) = .ok 6 ∧
    ((FullEnv.mk ⟨fun _ _ _ _ => .ok true⟩ (fun _ _ => .ok true) (fun _ => "Latin")).computeDisposition
    (run {} [.addChar [97] {}, .addChar [98] {}, .addVariant [97] { cp := [120] },
      .addVariant [97] { cp := [97] }, .addVariant [97] { cp := [121] },
      .addVariant [98] { cp := [122] }]) [] true { includeInvalid := true } [97, 98]).map List.length
      = .ok 6 := by decide +kernel

end Lgr.Props.C24

namespace Lgr.Props.C25
open Repertoire FullEnv

theorem dispLoop_defined {env : FullEnv} {r : Repertoire} (h : WF r)
    (hd : RulesDefined env.toEnv r) (refl : Bool) (label : Seq) : ∀ (rest : Seq) (i : Nat),
    ∃ x, env.dispLoop r refl label i rest = .ok x
  | [], _ => ⟨_, rfl⟩
  | cp :: rest, i => by
    have hr : ∀ (c : CharObj), r.getChar c.cp = .ok c → ∀ vs : List Variant,
        (∀ v ∈ vs, v ∈ c.getVariants) → ∃ x, env.reflexiveLoop label i vs = .ok x := by
      intro c hg vs
      induction vs with
      | nil => intro _; exact ⟨_, rfl⟩
      | cons v vs ih =>
        intro hv
        obtain ⟨x, hx⟩ := ih (fun w hw => hv w (List.mem_cons_of_mem _ hw))
        obtain ⟨b, hb⟩ := testVar_defined hd hg (hv v List.mem_cons_self) label i
        unfold reflexiveLoop
        simp only [hb, hx]
        exact ⟨_, rfl⟩
    have hc : ∀ cs : List CharObj, (∀ c ∈ cs, r.getChar c.cp = .ok c) →
        ∃ x, env.dispCharLoop refl label i (cp :: rest) cs = .ok x := by
      intro cs
      induction cs with
      | nil => intro _; exact ⟨_, rfl⟩
      | cons c cs ih =>
        intro hs
        obtain ⟨x, hx⟩ := ih (fun w hw => hs w (List.mem_cons_of_mem _ hw))
        have hg := hs c List.mem_cons_self
        obtain ⟨b, hb⟩ := testChar_defined hd hg label i
        unfold dispCharLoop
        split
        · exact ⟨x, hx⟩
        · cases b with
          | false => simp only [hb]; exact ⟨x, hx⟩
          | true =>
            simp only [hb]
            cases refl with
            | false => simp only [Bool.false_eq_true, if_false, hx]; exact ⟨_, rfl⟩
            | true =>
              obtain ⟨y, hy⟩ := hr c hg c.reflexiveVariants
                (fun v hv => ((mem_reflexive (stored_varWF h hg) v).1 hv).1)
              simp only [if_true, hy, hx]
              exact ⟨_, rfl⟩
    have hat : ∃ x, env.dispAt r refl label i cp rest = .ok x := by
      unfold dispAt
      cases hcs : r.charsFromPrefix cp with
      | error e => exact ⟨_, rfl⟩
      | ok cs =>
        obtain ⟨hmem, -, -⟩ := charsFromPrefix_ok h hcs
        exact hc cs (fun c hc => ((hmem c).1 hc).1)
    obtain ⟨x, hx⟩ := hat
    obtain ⟨y, hy⟩ := dispLoop_defined h hd refl label rest (i + 1)
    unfold dispLoop
    simp only [hx, hy]
    exact ⟨_, rfl⟩

theorem testEligible_defined {env : FullEnv} {r : Repertoire} (h : WF r)
    (hd : RulesDefined env.toEnv r) {actions : List Action}
    (ha : ∀ l, C20.ActionRulesDefined env actions l) (b : Bool) {label : Seq} (hl : label ≠ []) :
    ∃ el, env.testEligible r actions label b = .ok el := by
  unfold testEligible
  rw [if_neg hl]
  obtain ⟨p, hp⟩ := prelim_defined h hd label
  simp only [hp]
  split
  · exact ⟨_, rfl⟩
  · unfold testDisposition
    obtain ⟨x, hx⟩ := dispLoop_defined h hd (!b) label label 0
    simp only [hx]
    obtain ⟨s, i, hs, _⟩ := C20.always_disposition env actions label x.1
      (if x.1 ≠ [] then x.2 else false) (ha label)
    simp only [hs]
    split <;> exact ⟨_, rfl⟩

/-- On a non-empty label within the length limit, with the Unicode database and rules that do not
raise, the listing is produced. -/
theorem listing_total {env : FullEnv} {r : Repertoire} (h : WF r)
    (hd : RulesDefined env.toEnv r) {actions : List Action}
    (ha : ∀ l, C20.ActionRulesDefined env actions l) (o : Options) {label : Seq} (hl : label ≠ [])
    (hlen : label.length ≤ 63) :
    ∃ out, env.computeDisposition r actions true o label = .ok out := by
  unfold computeDisposition
  obtain ⟨gs, hgs⟩ := genVariants_defined h hd o.hide label
  have hne : ∀ g ∈ gs, g.cps ≠ [] := by
    intro g hg
    obtain ⟨ss, hr, hc, -⟩ := C22.generated_sound h hgs hg
    rw [hc]
    cases ss with
    | nil => exact absurd hr.concat.symm hl
    | cons s ss =>
      have hg := hr.stored s List.mem_cons_self
      intro h0
      have h0 : s.out ++ outOf ss = [] := h0
      have : s.out = [] := (List.append_eq_nil_iff.1 h0).1
      unfold Step.out at this
      cases ho : s.2 with
      | none => rw [ho] at this; exact getChar_ne_nil hg this
      | some v =>
        rw [ho] at this
        exact variant_ne_nil h hg ((hr.valid.1 v ho).1) this
  have hloop : ∀ (gs : List Gen), (∀ g ∈ gs, g.cps ≠ []) → ∀ handled orig,
      ∃ x, env.listLoop r actions o label handled orig gs = .ok x := by
    intro gs
    induction gs with
    | nil => intro _ _ _; exact ⟨_, rfl⟩
    | cons g gs ih =>
      intro hn handled orig
      have ih := ih (fun g hg => hn g (List.mem_cons_of_mem _ hg))
      have hit : ∃ it, env.itemOf r actions label g = .ok it := by
        unfold itemOf
        obtain ⟨el, hel⟩ := testEligible_defined h hd ha (decide (g.cps ≠ label)) (hn g List.mem_cons_self)
        rw [hel]
        simp only
        split
        · exact ⟨_, rfl⟩
        · obtain ⟨s, i, hs, _⟩ := C20.always_disposition env actions g.cps g.disp g.only (ha _)
          rw [hs]; exact ⟨_, rfl⟩
      obtain ⟨it, hit⟩ := hit
      unfold listLoop
      split
      · exact ih _ _
      split
      · exact ih _ _
      rw [hit]
      simp only
      split
      · split
        · exact ih _ _
        · obtain ⟨x, hx⟩ := ih (g.cps :: handled) orig
          rw [hx]; exact ⟨_, rfl⟩
      · exact ih _ _
  obtain ⟨x, hx⟩ := hloop gs hne [] none
  obtain ⟨its, orig⟩ := x
  simp only [Bool.not_true, Bool.false_eq_true, if_false, Nat.not_lt.2 hlen, hgs]
  rw [hx]
  cases orig with
  | some it => exact ⟨_, rfl⟩
  | none =>
    obtain ⟨el, hel⟩ := testEligible_defined h hd ha false hl
    simp only [hel]
    exact ⟨_, rfl⟩

end Lgr.Props.C25

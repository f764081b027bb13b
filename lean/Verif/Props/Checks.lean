import Verif.Checks
import Verif.Props.IterIntact
import Verif.Props.Metadata

/-!
# C37, C68, C70, C71: the validation suite
-/

namespace Lgr.Props.C37
open Lgr Checks

variable {σ ρ : Type}

/-- A call of `validate_lgr`: whether the RFC 7940 checks are asked for, what the checks do, and the
LGR. -/
structure Call (σ ρ : Type) where
  rfc : Bool
  body : Check → σ → σ × Except Err ρ
  lgr : σ

/-- The global list of checks after some calls in a new process. -/
def after (calls : List (Call σ ρ)) : List Check :=
  calls.foldl (fun checks c => (validateLgr c.body checks c.rfc c.lgr).1) baseChecks

/-- What a call does after some others. -/
def answer (before : List (Call σ ρ)) (c : Call σ ρ) : Except Err (List (Check × Except Err ρ)) :=
  (validateLgr c.body (after before) c.rfc c.lgr).2.2

theorem after_cons_eq (calls : List (Call σ ρ)) (checks : List Check) :
    calls.foldl (fun checks c => (validateLgr c.body checks c.rfc c.lgr).1) checks
      = checks ++ (List.replicate (calls.filter Call.rfc).length rfcChecks).flatten := by
  induction calls generalizing checks with
  | nil => simp
  | cons c calls ih =>
    rw [List.foldl_cons, ih]
    have : (validateLgr c.body checks c.rfc c.lgr).1 = if c.rfc then checks ++ rfcChecks else checks := rfl
    rw [this]
    cases hc : c.rfc with
    | false => simp [List.filter_cons, hc]
    | true => simp [List.filter_cons, hc, List.replicate_succ]

theorem runChecks_ok {body : Check → σ → σ × Except Err ρ} {cs : List Check} {s : σ}
    {l : List (Check × Except Err ρ)} (h : (runChecks body cs s).2 = .ok l) :
    l.map Prod.fst = cs ∧ ∀ p ∈ l, (∃ s', (body p.1 s').2 = p.2) ∧
      ∀ e, p.2 = .error e → isLgrException e = true := by
  induction cs generalizing s l with
  | nil =>
    simp only [runChecks, Except.ok.injEq] at h
    subst h; simp
  | cons c cs ih =>
    simp only [runChecks] at h
    rcases hb : body c s with ⟨s', r⟩
    rw [hb] at h
    rcases hr : runChecks body cs s' with ⟨s'', res⟩
    have ih' := fun l => ih (s := s') (l := l)
    cases r with
    | error e =>
      by_cases he : isLgrException e
      · simp only [he, if_true, hr] at h
        cases res with
        | error e' => simp at h
        | ok l' =>
          simp only [Except.ok.injEq] at h
          subst h
          obtain ⟨h1, h2⟩ := ih' l' (by rw [hr])
          refine ⟨by simp [h1], ?_⟩
          intro p hp
          rcases List.mem_cons.1 hp with rfl | hp
          · exact ⟨⟨s, by rw [hb]⟩, fun e' he' => by rw [← Except.error.inj he']; exact he⟩
          · exact h2 p hp
      · simp [he] at h
    | ok r =>
      simp only [hr] at h
      cases res with
      | error e' => simp at h
      | ok l' =>
        simp only [Except.ok.injEq] at h
        subst h
        obtain ⟨h1, h2⟩ := ih' l' (by rw [hr])
        refine ⟨by simp [h1], ?_⟩
        intro p hp
        rcases List.mem_cons.1 hp with rfl | hp
        · exact ⟨⟨s, by rw [hb]⟩, fun e' he' => by simp at he'⟩
        · exact h2 p hp

theorem runChecks_error {body : Check → σ → σ × Except Err ρ} {cs : List Check} {s : σ} {e : Err}
    (h : (runChecks body cs s).2 = .error e) :
    isLgrException e = false ∧ ∃ c ∈ cs, ∃ s', (body c s').2 = .error e := by
  induction cs generalizing s with
  | nil => simp [runChecks] at h
  | cons c cs ih =>
    simp only [runChecks] at h
    rcases hb : body c s with ⟨s', r⟩
    rw [hb] at h
    rcases hr : runChecks body cs s' with ⟨s'', res⟩
    have ih' := ih (s := s')
    have up : (∃ c ∈ cs, ∃ s', (body c s').2 = .error e) → ∃ d ∈ c :: cs, ∃ s', (body d s').2 = .error e :=
      fun ⟨d, hd, hs⟩ => ⟨d, by simp [hd], hs⟩
    cases r with
    | error e' =>
      by_cases he : isLgrException e'
      · simp only [he, if_true, hr] at h
        cases res with
        | error e'' =>
          simp only [Except.error.injEq] at h
          subst h
          obtain ⟨h1, h2⟩ := ih' (by rw [hr])
          exact ⟨h1, up h2⟩
        | ok l' => simp at h
      · simp only [he, Bool.false_eq_true, if_false, Except.error.injEq] at h
        subst h
        exact ⟨by simpa using he, c, by simp, s, by rw [hb]⟩
    | ok r =>
      simp only [hr] at h
      cases res with
      | error e'' =>
        simp only [Except.error.injEq] at h
        subst h
        obtain ⟨h1, h2⟩ := ih' (by rw [hr])
        exact ⟨h1, up h2⟩
      | ok l' => simp at h

/-- **C37** What a call reports: every check it runs, once each and in order, with what the check
returned or the `LGRException` it raised. -/
theorem report_complete (before : List (Call σ ρ)) (c : Call σ ρ) (l : List (Check × Except Err ρ))
    (h : answer before c = .ok l) :
    l.map Prod.fst = after before ++ (if c.rfc then rfcChecks else []) ∧
    ∀ p ∈ l, (∃ s, (c.body p.1 s).2 = p.2) ∧ ∀ e, p.2 = .error e → isLgrException e = true := by
  have h' : (runChecks c.body (if c.rfc then after before ++ rfcChecks else after before) c.lgr).2 = .ok l := h
  obtain ⟨h1, h2⟩ := runChecks_ok h'
  refine ⟨?_, h2⟩
  rw [h1]
  cases c.rfc <;> simp

/-- **C37** An exception that leaves `validate_lgr` is not an `LGRException`, and comes from a check. -/
theorem raises_only_others (before : List (Call σ ρ)) (c : Call σ ρ) (e : Err)
    (h : answer before c = .error e) :
    isLgrException e = false ∧ ∃ k s, (c.body k s).2 = .error e := by
  obtain ⟨h1, k, _, s, hs⟩ := runChecks_error h
  exact ⟨h1, k, s, hs⟩

/-- **C37** The list of checks grows by the two RFC 7940 checks with each call that asks for them. -/
theorem checks_after (calls : List (Call σ ρ)) :
    after calls = baseChecks ++ (List.replicate (calls.filter Call.rfc).length rfcChecks).flatten :=
  after_cons_eq calls baseChecks

/-- **C37** holds as long as no earlier call asked for the RFC 7940 checks. Missing: with such a call it
is false (`history_dependence`). -/
theorem same_checks_partial (before : List (Call σ ρ)) (hb : ∀ d ∈ before, d.rfc = false) (c : Call σ ρ)
    (l : List (Check × Except Err ρ)) (h : answer before c = .ok l) :
    l.map Prod.fst = baseChecks ++ (if c.rfc then rfcChecks else []) ∧
    answer before c = answer [] c := by
  have ha : after before = baseChecks := by
    rw [checks_after]
    have : before.filter Call.rfc = [] := by
      rw [List.filter_eq_nil_iff]; intro d hd; simp [hb d hd]
    simp [this]
  refine ⟨by rw [(report_complete before c l h).1, ha], ?_⟩
  unfold answer
  rw [ha]
  rfl

/-- **C37** is violated: once a call has asked for the RFC 7940 checks, every later call runs them. -/
theorem history_dependence (before : List (Call σ ρ)) (d : Call σ ρ) (hd : d ∈ before)
    (hr : d.rfc = true) (c : Call σ ρ) (l : List (Check × Except Err ρ)) (h : answer before c = .ok l) :
    Check.metadata ∈ l.map Prod.fst ∧ Check.miscellaneous ∈ l.map Prod.fst := by
  rw [(report_complete before c l h).1, checks_after]
  have hm : d ∈ before.filter Call.rfc := List.mem_filter.2 ⟨hd, hr⟩
  obtain ⟨n, hn⟩ : ∃ n, (before.filter Call.rfc).length = n + 1 :=
    ⟨_, (Nat.succ_pred_eq_of_pos (List.length_pos_of_mem hm)).symm⟩
  rw [hn, List.replicate_succ]
  simp [rfcChecks]

/-- A call whose checks all succeed. -/
def quiet (rfc : Bool) : Call Unit Unit := ⟨rfc, fun _ s => (s, .ok ()), ()⟩

/-- The hypotheses are met, and the answers differ. -/
example : answer [] (quiet false) ≠ answer [quiet true] (quiet false) ∧
    (∃ l, answer [quiet false] (quiet true) = .ok l) ∧
    (answer [quiet true] (quiet false)).toOption.map List.length = some 8 ∧
    (answer [quiet true, quiet true] (quiet true)).toOption.map List.length = some 12 := by
  refine ⟨?_, ⟨_, rfl⟩, rfl, rfl⟩
  intro h
  have h1 : (answer [] (quiet false)).toOption.map List.length = some 6 := rfl
  rw [h] at h1
  exact absurd h1 (by decide +kernel)

end Lgr.Props.C37

namespace Lgr.Props.C68
open Lgr Repertoire Checks LGR

/-- The variant `v` of `k` names the rule `w` in its attribute `kind`. -/
def Names (r : Repertoire) (k : Seq) (v : Variant) (kind w : String) : Prop :=
  ∃ c, r.getChar k = .ok c ∧ v ∈ c.getVariants ∧
    (kind = "when" ∧ v.whenR = some w ∨ kind = "not-when" ∧ v.notWhenR = some w)

theorem mem_condVariant {rules : List String} {c : CharObj} {v : Variant} {e : CondEntry} :
    e ∈ condVariant rules c v ↔ e.char = c.cp ∧ e.variant = v ∧ e.rule ∉ rules ∧
      (e.kind = "when" ∧ v.whenR = some e.rule ∨ e.kind = "not-when" ∧ v.notWhenR = some e.rule) := by
  obtain ⟨k, u, kind, w⟩ := e
  unfold condVariant
  rw [List.mem_append]
  constructor
  · rintro (h | h)
    · split at h
      · rename_i w' hw
        split at h
        · simp at h
        · rename_i hn
          simp only [List.mem_singleton, CondEntry.mk.injEq] at h
          obtain ⟨rfl, rfl, rfl, rfl⟩ := h
          exact ⟨rfl, rfl, hn, .inl ⟨rfl, hw⟩⟩
      · simp at h
    · split at h
      · rename_i w' hw
        split at h
        · simp at h
        · rename_i hn
          simp only [List.mem_singleton, CondEntry.mk.injEq] at h
          obtain ⟨rfl, rfl, rfl, rfl⟩ := h
          exact ⟨rfl, rfl, hn, .inr ⟨rfl, hw⟩⟩
      · simp at h
  · rintro ⟨h1, h2, h3, ⟨h4, h5⟩ | ⟨h4, h5⟩⟩
    · left
      simp only at h1 h2 h3 h4 h5
      subst h1 h2 h4
      simp [h5, h3]
    · right
      simp only at h1 h2 h3 h4 h5
      subst h1 h2 h4
      simp [h5, h3]

/-- **C68** The check reports exactly the conditions of variants that name no rule of the LGR, each
once, and passes iff there is none. -/
theorem conditional_exact (ops : List (Ctx × LGR.Op)) (hops : Along RangeSafe {} ops)
    (rules : List String) :
    (∀ e, e ∈ (checkConditional rules (LGR.run {} ops).rep).2 ↔
      Names (LGR.run {} ops).rep e.char e.variant e.kind e.rule ∧ e.rule ∉ rules) ∧
    (checkConditional rules (LGR.run {} ops).rep).2.Nodup ∧
    ((checkConditional rules (LGR.run {} ops).rep).1 = true ↔
      ∀ k v kind w, Names (LGR.run {} ops).rep k v kind w → w ∈ rules) := by
  have h := (run_wf ops).1
  have hi := C06.intact_history ops hops
  generalize (LGR.run {} ops).rep = r at h hi
  have key : ∀ e, e ∈ (checkConditional rules r).2 ↔
      Names r e.char e.variant e.kind e.rule ∧ e.rule ∉ rules := by
    intro e
    simp only [checkConditional, List.mem_flatMap]
    constructor
    · rintro ⟨c, hc, he⟩
      by_cases hr : c.isRange
      · simp [hr] at he
      rw [if_neg hr, List.mem_flatMap] at he
      obtain ⟨v, hv, he⟩ := he
      obtain ⟨h1, h2, h3, h4⟩ := mem_condVariant.1 he
      refine ⟨⟨c, ?_, by rw [h2]; exact hv, by rw [h2]; exact h4⟩, h3⟩
      rw [h1]
      exact getChar_ok.2 (C26.iter_mem h hc)
    · rintro ⟨⟨c, hc, hv, hw⟩, hn⟩
      have hl := getChar_ok.1 hc
      have hr : c.range = none := by
        cases hr : c.range with
        | none => rfl
        | some p =>
          obtain ⟨f, l⟩ := p
          obtain ⟨_, a, ha⟩ := hi.full f l (hi.marked _ c _ hl hr)
          obtain ⟨x, hx, h1, h2⟩ := (lookup_charWF h hl).rangeCp f l hr
          rw [← lookup_cp hl, hx, ha x h1 h2] at hl
          rw [← Option.some.inj hl] at hv
          exact absurd hv (by simp [CharObj.getVariants, sortAsc])
      refine ⟨c, C26.mem_iter h hl hr, ?_⟩
      rw [if_neg (by simp [CharObj.isRange, hr]), List.mem_flatMap]
      exact ⟨e.variant, hv, mem_condVariant.2 ⟨(lookup_cp hl).symm, rfl, hn, hw⟩⟩
  refine ⟨key, ?_, ?_⟩
  · simp only [checkConditional]
    rw [List.nodup_flatMap]
    constructor
    · intro c hc
      by_cases hr : c.isRange
      · simp [hr]
      rw [if_neg hr, List.nodup_flatMap]
      constructor
      · intro v _
        unfold condVariant
        split <;> split <;> (try split) <;> (try split) <;> simp
      · have hn : c.getVariants.Nodup := List.Nodup.of_map _
          (C08.getVariants_keys_nodup (lookup_charWF h (C26.iter_mem h hc)).varWF)
        refine hn.imp ?_
        intro v w hvw e he he'
        exact hvw ((mem_condVariant.1 he).2.1.symm.trans (mem_condVariant.1 he').2.1)
    · have hn : r.iter.Nodup := List.Nodup.of_map _ (iter_nodup h)
      refine hn.imp_of_mem ?_
      intro c d hc hd hne e hec hed
      have cpOf : ∀ c, e ∈ (if c.isRange = true then []
          else List.flatMap (condVariant rules c) c.getVariants) → e.char = c.cp := by
        intro c he
        by_cases hr : c.isRange
        · simp [hr] at he
        rw [if_neg hr, List.mem_flatMap] at he
        obtain ⟨v, _, he⟩ := he
        exact (mem_condVariant.1 he).1
      have := (cpOf c hec).symm.trans (cpOf d hed)
      have h1 := C26.iter_mem h hc
      rw [this, C26.iter_mem h hd] at h1
      exact hne (Option.some.inj h1).symm
  · have : (checkConditional rules r).1 = decide ((checkConditional rules r).2 = []) := rfl
    rw [this, decide_eq_true_eq, List.eq_nil_iff_forall_not_mem]
    constructor
    · intro hall k v kind w hn
      by_contra hw
      exact hall ⟨k, v, kind, w⟩ ((key _).2 ⟨hn, hw⟩)
    · intro hall e he
      obtain ⟨h1, h2⟩ := (key e).1 he
      exact h2 (hall _ _ _ _ h1)

/-- A variant with an unknown rule, and one with a known rule. -/
def sample : List (Ctx × LGR.Op) :=
  [(C06.ctx0, .addCp (.int 97) {}), (C06.ctx0, .addVariant (.int 97) (.int 98) none { whenR := some "x" }),
   (C06.ctx0, .addVariant (.int 97) (.int 98) none { notWhenR := some "y" })]

example : Along RangeSafe {} sample ∧
    (checkConditional ["y"] (LGR.run {} sample).rep).1 = false ∧
    (checkConditional ["y"] (LGR.run {} sample).rep).2.map CondEntry.rule = ["x"] ∧
    (checkConditional ["x", "y"] (LGR.run {} sample).rep).1 = true :=
  ⟨⟨trivial, trivial, trivial, trivial⟩, by decide +kernel⟩

end Lgr.Props.C68

import Verif.Props.PopulateRules
import Verif.Props.Disposition

/-!
# C133: populating variants and the eligibility of labels
-/

namespace Lgr.Props.C133
open Lgr LGR Repertoire FullEnv C50 C26 Populate C28

/-! ## Two repertoires alike as far as a label is concerned -/

/-- Every entry of `r` occurring in the label is in `r'`, with the same attributes and reflexive
variants. -/
def Half (r r' : Repertoire) (label : Seq) : Prop :=
  ∀ c, r.lookup c.cp = some c → c.cp <:+: label → ∃ c', r'.lookup c.cp = some c' ∧ c'.attrs = c.attrs ∧
    ∀ v : Variant, v.cp = c.cp → (v ∈ c'.getVariants ↔ v ∈ c.getVariants)

theorem drop_infix {k label : Seq} {o : Nat} (h : k <+: label.drop o) : k <:+: label :=
  h.isInfix.trans (List.drop_suffix o label).isInfix

theorem half_matches {r r' : Repertoire} {label : Seq} (h : Half r r' label) {o : Nat} {c : CharObj}
    (hm : MatchesAt r label o c) : ∃ c', MatchesAt r' label o c' ∧ c'.cp = c.cp ∧ c'.attrs = c.attrs ∧
      ∀ v : Variant, v.cp = c.cp → (v ∈ c'.getVariants ↔ v ∈ c.getVariants) := by
  obtain ⟨c', h1, h2, h3⟩ := h c (getChar_ok.1 hm.1) (drop_infix hm.2)
  have hcp := lookup_cp h1
  refine ⟨c', ⟨getChar_ok.2 (by rw [hcp]; exact h1), by rw [hcp]; exact hm.2⟩, hcp, h2, h3⟩

theorem ctx_same {env : Env} {label : Seq} {o : Nat} {c c' : CharObj} (h1 : c'.cp = c.cp)
    (h2 : c'.attrs = c.attrs) : CharCtx env label o c' ↔ CharCtx env label o c := by
  unfold CharCtx; rw [h1, h2]

/-- What a piece of the test says, without the rules. -/
def view (it : Piece) : Bool × Seq := (it.bad?.isSome, it.cps)

theorem cps_ne {env : Env} {r : Repertoire} {label : Seq} {o : Nat} {it : Piece}
    (h : it.Right env r label o) : it.cps ≠ [] := by
  cases it with
  | bad x l => simp [Piece.cps]
  | char c =>
    intro h0
    have := getChar_ok.1 h.1.1
    rw [show c.cp = [] from h0] at this
    simp [lookup] at this

theorem items_same {env : Env} {r r' : Repertoire} {label : Seq} (h1 : Half r r' label)
    (h2 : Half r' r label) : ∀ (items items' : List Piece) (o : Nat),
    items.flatMap Piece.cps = label.drop o → items'.flatMap Piece.cps = label.drop o →
    (∀ pre it post, items = pre ++ it :: post → it.Right env r label (o + (pre.flatMap Piece.cps).length)) →
    (∀ pre it post, items' = pre ++ it :: post → it.Right env r' label (o + (pre.flatMap Piece.cps).length)) →
    items.map view = items'.map view
  | [], [], _, _, _, _, _ => rfl
  | [], it :: items', o, e1, e2, _, r2 => by
    have := cps_ne (r2 [] it items' rfl)
    rw [← e1] at e2
    simp at e2
    exact absurd e2.1 this
  | it :: items, [], o, e1, e2, r1, _ => by
    have := cps_ne (r1 [] it items rfl)
    rw [← e2] at e1
    simp at e1
    exact absurd e1.1 this
  | it :: items, it' :: items', o, e1, e2, r1, r2 => by
    have q1 := r1 [] it items rfl
    have q2 := r2 [] it' items' rfl
    simp only [List.flatMap_nil, List.length_nil, Nat.add_zero] at q1 q2
    rw [List.flatMap_cons] at e1 e2
    have hview : view it = view it' := by
      cases it with
      | char c =>
        cases it' with
        | char c' =>
          obtain ⟨d', m', k1, k2, -⟩ := half_matches h1 q1.1
          obtain ⟨d, m, k3, k4, -⟩ := half_matches h2 q2.1
          have l1 := q2.2.2 d' m' ((ctx_same k1 k2).2 q1.2.1)
          have l2 := q1.2.2 d m ((ctx_same k3 k4).2 q2.2.1)
          simp only [CharObj.len, k1, k3] at l1 l2
          have : c.cp = c'.cp :=
            (List.prefix_of_prefix_length_le q1.1.2 q2.1.2 l1).eq_of_length (by omega)
          simp [view, Piece.bad?, Piece.cps, this]
        | bad x l =>
          obtain ⟨d', m', k1, k2, -⟩ := half_matches h1 q1.1
          exact absurd (q2.1 d' m') (fun hf => ctx_not_both ((ctx_same k1 k2).2 q1.2.1) hf)
      | bad x l =>
        cases it' with
        | char c' =>
          obtain ⟨d, m, k1, k2, -⟩ := half_matches h2 q2.1
          exact absurd (q1.1 d m) (fun hf => ctx_not_both ((ctx_same k1 k2).2 q2.2.1) hf)
        | bad y l' =>
          rw [← e2] at e1
          simp only [Piece.cps, List.cons_append, List.nil_append, List.cons.injEq] at e1
          simp [view, Piece.bad?, Piece.cps, e1.1]
    have hcps : it.cps = it'.cps := congrArg Prod.snd hview
    rw [List.map_cons, List.map_cons, hview]
    congr 1
    have hd : ∀ l : List Piece, it.cps ++ l.flatMap Piece.cps = label.drop o →
        l.flatMap Piece.cps = label.drop (o + it.cps.length) := by
      intro l hl
      rw [← List.drop_drop, ← hl, List.drop_left]
    refine items_same (env := env) h1 h2 items items' (o + it.cps.length) (hd _ e1) (hd _ (by rw [hcps]; exact e2)) ?_ ?_
    · intro pre x post he
      have := r1 (it :: pre) x post (by rw [he]; rfl)
      rwa [List.flatMap_cons, List.length_append, ← Nat.add_assoc] at this
    · intro pre x post he
      have := r2 (it' :: pre) x post (by rw [he]; rfl)
      rwa [List.flatMap_cons, List.length_append, ← Nat.add_assoc, ← hcps] at this

theorem parts_view (items : List Piece) : (items.filterMap Piece.char?).flatMap CharObj.cp =
    ((items.map view).filter (fun p => !p.1)).flatMap Prod.snd := by
  induction items with
  | nil => rfl
  | cons it items ih =>
    cases it <;> simp [List.filterMap_cons, view, Piece.char?, Piece.bad?, Piece.cps, ih]

theorem invalid_view (items : List Piece) : ((items.filterMap Piece.bad?).map Prod.fst).map (fun x => [x]) =
    ((items.map view).filter (fun p => p.1)).map Prod.snd := by
  induction items with
  | nil => rfl
  | cons it items ih =>
    cases it <;> simp [List.filterMap_cons, view, Piece.bad?, Piece.cps] <;> simpa using ih

/-- The preliminary test says the same. -/
theorem prelim_same {env : Env} {r r' : Repertoire} (hw : WF r) (hw' : WF r') {label : Seq}
    (h1 : Half r r' label) (h2 : Half r' r label) {p p' : Env.Prelim} (hp : env.prelim r label = .ok p)
    (hp' : env.prelim r' label = .ok p') :
    p.ok = p'.ok ∧ p.parts = p'.parts ∧ p.invalid.map Prod.fst = p'.invalid.map Prod.fst := by
  obtain ⟨items, d⟩ := prelim_describes hw hp
  obtain ⟨items', d'⟩ := prelim_describes hw' hp'
  have hv := items_same h1 h2 items items' 0 (by simpa using d.concat) (by simpa using d'.concat)
    d.right d'.right
  have hinv : p.invalid.map Prod.fst = p'.invalid.map Prod.fst := by
    have := invalid_view items
    rw [hv, ← invalid_view items'] at this
    rw [d.invalid, d'.invalid]
    exact List.map_injective_iff.2 (fun a b h => by simpa using h) this
  refine ⟨?_, ?_, hinv⟩
  · have : p.invalid = [] ↔ p'.invalid = [] := by
      rw [← List.map_eq_nil_iff (f := Prod.fst), hinv, List.map_eq_nil_iff]
    rw [Bool.eq_iff_iff, d.ok, d'.ok, this]
  · rw [d.parts, d'.parts, d.chars, d'.chars, parts_view, parts_view, hv]

theorem apply_same {env : FullEnv} {actions : List Action} {label : Seq} {d d' : DispSet} {only : Bool}
    (h : ∀ t, t ∈ d ↔ t ∈ d') : applyActions env actions label d only = applyActions env actions label d' only := by
  have hnil : d = [] ↔ d' = [] := by
    simp only [List.eq_nil_iff_forall_not_mem, h]
  have hall : ∀ f : Option String → Bool, d.all f = d'.all f := by
    intro f
    rw [Bool.eq_iff_iff, List.all_eq_true, List.all_eq_true]
    simp only [h]
  have hv : ∀ a : Action, a.variantMatched d only = a.variantMatched d' only := by
    intro a
    unfold Action.variantMatched
    simp only [h, hall, ne_eq, hnil]
  have hloop : ∀ (l : List Action) (n : Nat), applyLoop env label d only n l = applyLoop env label d' only n l := by
    intro l
    induction l with
    | nil => intro n; rfl
    | cons a l ih =>
      intro n
      unfold applyLoop
      have : a.apply env label d only = a.apply env label d' only := by
        unfold Action.apply; rw [hv]
      rw [this]
      simp only [ih]
  exact hloop _ _

/-- The label is found eligible or not, with the same disposition by the same action. -/
theorem eligible_same {env : FullEnv} {r r' : Repertoire} (hw : WF r) (hw' : WF r') {label : Seq}
    {actions : List Action} (h1 : Half r r' label) (h2 : Half r' r label) {el el' : Eligible}
    (he : env.testEligible r actions label = .ok el) (he' : env.testEligible r' actions label = .ok el') :
    el.ok = el'.ok ∧ el.parts = el'.parts ∧ el.invalid.map Prod.fst = el'.invalid.map Prod.fst ∧
      el.disp = el'.disp ∧ el.idx = el'.idx := by
  unfold testEligible at he he'
  by_cases hnil : label = []
  · simp [hnil] at he
  rw [if_neg hnil] at he he'
  cases hp : env.prelim r label with
  | error e => simp [hp] at he
  | ok p =>
    cases hp' : env.prelim r' label with
    | error e => simp [hp'] at he'
    | ok p' =>
      obtain ⟨k1, k2, k3⟩ := prelim_same hw hw' h1 h2 hp hp'
      simp only [hp] at he
      simp only [hp'] at he'
      by_cases hok : p.ok = true
      · have hok' := k1 ▸ hok
        simp only [hok, hok', Bool.not_true, Bool.false_eq_true, if_false, Bool.not_false] at he he'
        unfold testDisposition at he he'
        cases hd : env.dispLoop r true label 0 label with
        | error e => simp [hd] at he
        | ok x =>
          cases hd' : env.dispLoop r' true label 0 label with
          | error e => simp [hd'] at he'
          | ok x' =>
            obtain ⟨d, b⟩ := x
            obtain ⟨d', b'⟩ := x'
            obtain ⟨i1, i2⟩ := dispLoop_spec hw (by simp) hd
            obtain ⟨j1, j2⟩ := dispLoop_spec hw' (by simp) hd'
            have trans : ∀ {r r' : Repertoire}, Half r r' label → ∀ {j c v}, MatchesAt r label j c →
                CharCtx env.toEnv label j c → ReflexiveAt env.toEnv label j c v →
                ∃ c', MatchesAt r' label j c' ∧ CharCtx env.toEnv label j c' ∧
                  ReflexiveAt env.toEnv label j c' v := by
              intro r r' hh j c v m hc hr
              obtain ⟨c', m', q1, q2, q3⟩ := half_matches hh m
              exact ⟨c', m', (ctx_same q1 q2).2 hc, (q3 v hr.2.1).2 hr.1, by rw [q1]; exact hr.2.1, hr.2.2⟩
            have hdd : ∀ t, t ∈ d ↔ t ∈ d' := by
              intro t
              rw [i1, j1]
              constructor
              · rintro ⟨-, j, c, v, a1, a2, a3, a4, a5, a6⟩
                obtain ⟨c', b1, b2, b3⟩ := trans h1 a3 a4 a5
                exact ⟨rfl, j, c', v, a1, a2, b1, b2, b3, a6⟩
              · rintro ⟨-, j, c, v, a1, a2, a3, a4, a5, a6⟩
                obtain ⟨c', b1, b2, b3⟩ := trans h2 a3 a4 a5
                exact ⟨rfl, j, c', v, a1, a2, b1, b2, b3, a6⟩
            have half : ∀ {r r' : Repertoire}, Half r' r label →
                (∀ j c, 0 ≤ j → j < label.length → MatchesAt r label j c → CharCtx env.toEnv label j c →
                  true = true ∧ ∃ v, ReflexiveAt env.toEnv label j c v) →
                ∀ j c, 0 ≤ j → j < label.length → MatchesAt r' label j c → CharCtx env.toEnv label j c →
                  true = true ∧ ∃ v, ReflexiveAt env.toEnv label j c v := by
              intro r r' hh hall j c a1 a2 m hc
              obtain ⟨c', m', q1, q2, q3⟩ := half_matches hh m
              obtain ⟨-, v, hv⟩ := hall j c' a1 a2 m' ((ctx_same q1 q2).2 hc)
              have hvc : v.cp = c.cp := hv.2.1.trans q1
              exact ⟨rfl, v, (q3 v hvc).1 hv.1, hvc, hv.2.2⟩
            have hbb : b = b' := by
              rw [Bool.eq_iff_iff, i2, j2]
              exact ⟨half h2, half h1⟩
            have hnil' : d = [] ↔ d' = [] := by
              simp only [List.eq_nil_iff_forall_not_mem, hdd]
            have ha : applyActions env actions label d (if d ≠ [] then b else false) =
                applyActions env actions label d' (if d' ≠ [] then b' else false) := by
              rw [apply_same hdd, hbb]
              simp only [ne_eq, hnil']
            simp only [hd] at he
            simp only [hd', ← ha] at he'
            cases hx : applyActions env actions label d (if d ≠ [] then b else false) with
            | error e => rw [hx] at he; simp at he
            | ok y =>
              obtain ⟨z, i⟩ := y
              rw [hx] at he he'
              simp only at he he'
              split at he
              · rename_i hz
                rw [if_pos hz] at he'
                cases he; cases he'
                exact ⟨rfl, rfl, rfl, rfl, rfl⟩
              · rename_i hz
                rw [if_neg hz] at he'
                cases he; cases he'
                exact ⟨rfl, rfl, rfl, rfl, rfl⟩
      · have hok0 : p.ok = false := by simpa using hok
        have hok' : p'.ok = false := k1 ▸ hok0
        simp only [hok0, hok', Bool.not_false, if_true] at he he'
        cases he; cases he'
        exact ⟨rfl, k2, k3, rfl, rfl⟩

/-! ## Populating -/

/-- The code points which are variants without being entries. -/
def Missing (g : LGR) (k : Seq) : Prop := ¬ In g k ∧ ∃ a, Pair g a k

theorem populate_half (db : UniDb) (n : Nat) (g g' : LGR) (hwf : WF g.rep)
    (h : populate db n g = some (g', .ok ())) (label : Seq) (hl : ∀ k, Missing g k → ¬ k <:+: label) :
    WF g'.rep ∧ Half g.rep g'.rep label ∧ Half g'.rep g.rep label := by
  obtain ⟨w, gr, hi, -⟩ := populate_spec (R := fun _ _ => True) ⟨by simp, by simp⟩ hwf (by simp) h
  have hown : ∀ (c c' : CharObj), g.rep.lookup c.cp = some c → g'.rep.lookup c.cp = some c' →
      ∀ v : Variant, v.cp = c.cp → (v ∈ c'.getVariants ↔ v ∈ c.getVariants) := by
    intro c c' hc hc' v hv
    have := gr.own v
    unfold Maps at this
    rw [hv, hc, hc'] at this
    simpa using this
  refine ⟨w, fun c hc _ => ?_, fun c' hc' hx => ?_⟩
  · obtain ⟨c', hc', ha, -⟩ := gr.keep c.cp c hc
    exact ⟨c', hc', ha, hown c c' hc hc'⟩
  · cases hc : g.rep.lookup c'.cp with
    | none =>
      have hn : ¬ In g c'.cp := by rintro ⟨d, hd⟩; rw [hc] at hd; cases hd
      exact absurd hx (hl _ ⟨hn, ((hi _).1 ⟨c', hc'⟩).resolve_left hn⟩)
    | some c =>
      have hcp := lookup_cp hc
      obtain ⟨d, hd, ha, -⟩ := gr.keep c'.cp c hc
      rw [hc'] at hd
      cases hd
      refine ⟨c, rfl, ha.symm, fun v hv => ?_⟩
      exact (hown c c' (by rw [hcp]; exact hc) (by rw [hcp]; exact hc') v (by rw [hcp]; exact hv)).symm

/-- **C133** The test of a label in which no missing code point occurs says the same after populating
as before: eligible or not, disposition, deciding action, code points rejected. Missing for the full
property: labels with missing code points, for which it is false (`missing_becomes_eligible_wrong`,
`label_lost_wrong`). -/
theorem populate_labels_partial (db : UniDb) (n : Nat) (g g' : LGR) (hwf : WF g.rep)
    (h : populate db n g = some (g', .ok ())) (env : FullEnv) (actions : List Action) (label : Seq)
    (hl : ∀ k, Missing g k → ¬ k <:+: label) (el el' : Eligible)
    (he : env.testEligible g.rep actions label = .ok el)
    (he' : env.testEligible g'.rep actions label = .ok el') :
    el.ok = el'.ok ∧ el.parts = el'.parts ∧ el.invalid.map Prod.fst = el'.invalid.map Prod.fst ∧
      el.disp = el'.disp ∧ el.idx = el'.idx := by
  obtain ⟨w, h1, h2⟩ := populate_half db n g g' hwf h label hl
  exact eligible_same hwf w h1 h2 he he'

/-- **C133** An LGR without missing code points answers alike for all labels; both answers exist if no
rule raises. -/
theorem populate_closed (db : UniDb) (n : Nat) (g g' : LGR) (hwf : WF g.rep)
    (h : populate db n g = some (g', .ok ())) (hc : ∀ k, ¬ Missing g k) (env : FullEnv)
    (actions : List Action) (ht : ∀ w l a i, ∃ b, env.ruleMatches w l a i = .ok b)
    (ha : ∀ l, C20.ActionRulesDefined env actions l) (label : Seq) (hne : label ≠ []) :
    ∃ el el', env.testEligible g.rep actions label = .ok el ∧
      env.testEligible g'.rep actions label = .ok el' ∧
      el.ok = el'.ok ∧ el.parts = el'.parts ∧ el.invalid.map Prod.fst = el'.invalid.map Prod.fst ∧
      el.disp = el'.disp ∧ el.idx = el'.idx := by
  obtain ⟨w, -⟩ := populate_half db n g g' hwf h label (fun k hk => absurd hk (hc k))
  have hd : ∀ r : Repertoire, RulesDefined env.toEnv r := fun r =>
    ⟨fun _ _ w _ l a i => ht w l a i, fun _ _ _ _ w _ l a i => ht w l a i⟩
  obtain ⟨el, he⟩ := C25.testEligible_defined hwf (hd g.rep) ha false hne
  obtain ⟨el', he'⟩ := C25.testEligible_defined w (hd g'.rep) ha false hne
  exact ⟨el, el', he, he', populate_labels_partial db n g g' hwf h env actions label
    (fun k hk => absurd hk (hc k)) el el' he he'⟩

/-- The entry with which a label of one code point is written. -/
theorem single_seg {env : Env} {r : Repertoire} {x : Nat} {cs : List CharObj}
    (hs : Segmentation env r [x] cs) : ∃ c, r.lookup [x] = some c := by
  have hcat := hs.concat
  cases cs with
  | nil => simp at hcat
  | cons c cs =>
    have hg := getChar_ok.1 (hs.stored c (by simp))
    rw [List.flatMap_cons] at hcat
    cases hc : c.cp with
    | nil => rw [hc] at hg; simp [lookup] at hg
    | cons y t =>
      rw [hc] at hcat
      simp only [List.cons_append, List.cons.injEq, List.append_eq_nil_iff] at hcat
      exact ⟨c, by rw [← hcat.1, ← hcat.2.1, ← hc]; exact hg⟩

/-- **C133** is violated by every LGR one of whose variants is a single code point which is not an
entry: before populating, that code point is not eligible; afterwards it is accepted as a plain entry
and its disposition is decided without variant types, so that it is valid if no action says otherwise. -/
theorem missing_becomes_eligible_wrong (db : UniDb) (n : Nat) (g g' : LGR) (hwf : WF g.rep)
    (h : populate db n g = some (g', .ok ())) (x : Nat) (hx : Missing g [x]) (env : FullEnv)
    (actions : List Action) (el el' : Eligible)
    (he : env.testEligible g.rep actions [x] = .ok el)
    (he' : env.testEligible g'.rep actions [x] = .ok el') :
    el.ok = false ∧ el.disp = some "invalid" ∧ el.idx = -1 ∧
    ∃ s, Decides env actions [x] [] false s el'.idx ∧ el'.disp = some s ∧ (el'.ok = true ↔ s ≠ "invalid") ∧
      (actions = [] → s = "valid") := by
  obtain ⟨w, gr, hi, -⟩ := populate_spec (R := fun _ _ => True) ⟨by simp, by simp⟩ hwf (by simp) h
  have hna : ¬ Accepted env g.rep [x] := by
    rintro ⟨p, hp, hok⟩
    exact hx.1 (single_seg (C13.accepted_is_segmentation hwf hp hok).1)
  obtain ⟨e1, e2, e3⟩ := C49.rejected_disposition he hna
  refine ⟨e1, e2, e3, ?_⟩
  obtain ⟨c', hc'⟩ := (hi [x]).2 (.inr hx.2)
  have hcp := lookup_cp hc'
  have hnone : g.rep.lookup [x] = none := by
    cases hl : g.rep.lookup [x] with
    | none => rfl
    | some c => exact absurd ⟨c, hl⟩ hx.1
  have hattrs := (gr.fresh [x] c' hnone hc').1
  have hacc : Accepted env g'.rep [x] := by
    unfold testEligible at he'
    simp only [List.cons_ne_nil, if_false] at he'
    cases hp : env.prelim g'.rep [x] with
    | error e => simp [hp] at he'
    | ok p =>
      refine ⟨p, hp, C14.accepts_plain_labels_partial w hp (fun y hy => ?_)⟩
      simp only [List.mem_singleton] at hy
      subst hy
      exact ⟨c', getChar_ok.2 hc', by rw [hattrs], by rw [hattrs]⟩
  obtain ⟨d, only, s, k1, k2, k3, k4, k5⟩ := C49.reflexive_disposition w he' hacc
  have hd : d = [] := by
    rw [List.eq_nil_iff_forall_not_mem]
    intro t ht
    obtain ⟨j, c, v, a1, a2, -, a4, -⟩ := (k1 t).1 ht
    have hj : j = 0 := by simpa using a1
    subst hj
    have hcx : c.cp = [x] := by
      have h1 := a2.2
      have h2 := getChar_ok.1 a2.1
      cases hc : c.cp with
      | nil => rw [hc] at h2; simp [lookup] at h2
      | cons y t =>
        rw [hc] at h1
        simp only [List.drop_zero, List.cons_prefix_cons, List.prefix_nil] at h1
        rw [h1.1, h1.2]
    have hm : Maps g' [x] v := ⟨c, by rw [← hcx]; exact getChar_ok.1 a2.1, a4.1⟩
    have hvx : v.cp = [x] := by rw [a4.2.1, hcx]
    have := (gr.own v).1 (by rw [hvx]; exact hm)
    rw [hvx] at this
    exact hx.1 (maps_in this)
  subst hd
  have hon : only = false := by
    cases only with
    | false => rfl
    | true => exact absurd rfl (k2.1 rfl).1
  subst hon
  refine ⟨s, k3, k4, k5, ?_⟩
  rintro rfl
  have := decides_iff.2 k3
  have hval : applyActions env [] [x] [] false = .ok (some "valid", 4) := by
    simp [applyActions, effectiveActions, defaultActions, applyLoop, Action.apply, Action.ruleMatched,
      Action.variantMatched]
  rw [hval] at this
  simp only [Except.ok.injEq, Prod.mk.injEq, Option.some.injEq] at this
  exact this.1.symm

/-- An environment without rules. -/
def envT : FullEnv := { ruleMatches := fun _ _ _ _ => .ok true, labelMatches := fun _ _ => .ok true, script := fun _ => "" }

/-- `a` has the variant `z`, which is not an entry. -/
def lackOps : List (LGR.Ctx × LGR.Op) :=
  [(C27.ctx, .addCp (.int 97) {}), (C27.ctx, .addVariant (.int 97) (.int 122) (some "blocked") {})]

/-- `a` has the variant `ab`, which is not an entry; `bc` is one. -/
def lostOps : List (LGR.Ctx × LGR.Op) :=
  [(C27.ctx, .addCp (.int 97) {}), (C27.ctx, .addCp (.seq [98, 99]) {}),
   (C27.ctx, .addVariant (.int 97) (.seq [97, 98]) (some "blocked") {})]

/-- What the test says of a label before and after populating. -/
def beforeAfter (ops : List (LGR.Ctx × LGR.Op)) (label : Seq) : Option (Bool × Bool) :=
  match envT.testEligible (LGR.run {} ops).rep [] label, populate none 5 (LGR.run {} ops) with
  | .ok el, some (g', .ok ()) =>
    match envT.testEligible g'.rep [] label with
    | .ok el' => some (el.ok, el'.ok)
    | .error _ => none
  | _, _ => none

/-- **C133** is violated: `z` was not in the LGR; after populating it is a valid label. -/
theorem new_label_wrong : beforeAfter lackOps [122] = some (false, true) := by decide +kernel

/-- **C133** is violated: `abc` was `a` followed by `bc`; after populating, the longest match is `ab`, and
the label is no longer valid. -/
theorem label_lost_wrong : beforeAfter lostOps [97, 98, 99] = some (true, false) := by decide +kernel

/-! Non-vacuity: a label without missing code points. -/
example : beforeAfter lackOps [97] = some (true, true) := by decide +kernel
example : beforeAfter lackOps [98] = some (false, false) := by decide +kernel

end Lgr.Props.C133

import Verif.Props.ReviewRepertoire
import Verif.Props.IterIntact
import Verif.LabelLemmas

/-!
# C77, C81, C82, C83: review of actions, language tags and rules
-/

namespace Lgr.Props.C81
open Lgr Review

/-- Actions which do the same: comments and references do not count, and the variants are sets. -/
structure Same (a b : Action) : Prop where
  disp : a.disp = b.disp
  matchR : a.matchR = b.matchR
  notMatchR : a.notMatchR = b.notMatchR
  anyV : ∀ t, t ∈ a.anyVariant ↔ t ∈ b.anyVariant
  allV : ∀ t, t ∈ a.allVariants ↔ t ∈ b.allVariants
  onlyV : ∀ t, t ∈ a.onlyVariants ↔ t ∈ b.onlyVariants

theorem sameSet_iff {a b : List String} : sameSet a b = true ↔ ∀ t, t ∈ a ↔ t ∈ b := by
  simp only [sameSet, Bool.and_eq_true, List.all_eq_true, decide_eq_true_eq]
  exact ⟨fun h t => ⟨h.1 t, h.2 t⟩, fun h => ⟨fun t => (h t).1, fun t => (h t).2⟩⟩

theorem eqAction_iff {a b : Action} : eqAction a b = true ↔ Same a b := by
  simp only [eqAction, Bool.and_eq_true, decide_eq_true_eq, sameSet_iff]
  exact ⟨fun ⟨⟨⟨⟨⟨h1, h2⟩, h3⟩, h4⟩, h5⟩, h6⟩ => ⟨h1, h2, h3, h4, h5, h6⟩,
    fun ⟨h1, h2, h3, h4, h5, h6⟩ => ⟨⟨⟨⟨⟨h1, h2⟩, h3⟩, h4⟩, h5⟩, h6⟩⟩

theorem Same.refl (a : Action) : Same a a := ⟨rfl, rfl, rfl, fun _ => Iff.rfl, fun _ => Iff.rfl, fun _ => Iff.rfl⟩

theorem Same.symm {a b : Action} (h : Same a b) : Same b a :=
  ⟨h.1.symm, h.2.symm, h.3.symm, fun t => (h.4 t).symm, fun t => (h.5 t).symm, fun t => (h.6 t).symm⟩

theorem Same.trans {a b c : Action} (h : Same a b) (h' : Same b c) : Same a c :=
  ⟨h.1.trans h'.1, h.2.trans h'.2, h.3.trans h'.3, fun t => (h.4 t).trans (h'.4 t),
    fun t => (h.5 t).trans (h'.5 t), fun t => (h.6 t).trans (h'.6 t)⟩

/-- An action of the list does the same. -/
def Among (l : List Action) (a : Action) : Prop := ∃ b ∈ l, Same a b

theorem hasAction_iff {l : List Action} {a : Action} : hasAction l a = true ↔ Among l a := by
  simp [hasAction, Among, eqAction_iff]

theorem Among.congr {l : List Action} {a b : Action} (h : Same a b) : Among l a ↔ Among l b :=
  ⟨fun ⟨c, h1, h2⟩ => ⟨c, h1, h.symm.trans h2⟩, fun ⟨c, h1, h2⟩ => ⟨c, h1, h.trans h2⟩⟩

theorem sameActions_iff {l m : List Action} : sameActions l m = true ↔ List.Forall₂ Same l m := by
  induction l generalizing m with
  | nil => cases m <;> simp [sameActions]
  | cons a l ih => cases m <;> simp [sameActions, eqAction_iff, ih]

theorem has_matching (idn ref : List Action) (l : List Action) (hl : l = idn ∨ l = ref) {a : Action} (ha : a ∈ l) :
    hasAction (l.filter (fun a => hasAction idn a && hasAction ref a)) a = true ↔ Among idn a ∧ Among ref a := by
  rw [hasAction_iff]
  constructor
  · rintro ⟨b, hb, hs⟩
    rw [List.mem_filter, Bool.and_eq_true, hasAction_iff, hasAction_iff] at hb
    rw [Among.congr hs, Among.congr hs]
    exact hb.2
  · rintro ⟨h1, h2⟩
    exact ⟨a, by rw [List.mem_filter, Bool.and_eq_true, hasAction_iff, hasAction_iff]; exact ⟨ha, h1, h2⟩, Same.refl a⟩

theorem mem_numbered {l : List Action} {n : Nat} {a : Action} : (n, a) ∈ numbered l ↔ 1 ≤ n ∧ l[n - 1]? = some a := by
  unfold numbered
  rw [List.mem_iff_getElem?]
  simp only [List.getElem?_zip_eq_some]
  constructor
  · rintro ⟨i, h1, h2⟩
    have h3 := List.getElem?_eq_some_iff.1 h1
    obtain ⟨h4, h5⟩ := h3
    rw [List.getElem_range'] at h5
    have : n - 1 = i := by omega
    rw [this]
    exact ⟨by omega, h2⟩
  · rintro ⟨h1, h2⟩
    refine ⟨n - 1, ?_, h2⟩
    have := (List.getElem?_eq_some_iff.1 h2).1
    rw [List.getElem?_range' (by simpa using this)]
    congr 1; omega

/-- **C81** The report on actions: it lists the actions of the table, with their numbers, and says `MATCH` of
those alone of which the reference has one that does the same; then those of the reference of which the
table has none. -/
theorem comparison_exact (idn ref : List Action) (e : ActionEntry) :
    e ∈ (actionsReport idn ref).1 ↔
      ∃ n a, 1 ≤ n ∧ e.number = n ∧ e.comment = (if a.comment = some "" then none else a.comment) ∧
        ((idn[n - 1]? = some a ∧ e.fromIdn = true ∧ e.inIdn = true ∧
            ((Among ref a ∧ e.inRef = true ∧ e.result = .matched ∧
                e.remark = "Exact Match (action name and content are the same)") ∨
             (¬ Among ref a ∧ e.inRef = false ∧ e.result = .manualCheck ∧
                e.remark = "Mismatch (additional action)"))) ∨
         (ref[n - 1]? = some a ∧ ¬ Among idn a ∧ e.fromIdn = false ∧ e.inIdn = false ∧ e.inRef = true ∧
            e.result = .manualCheck ∧ e.remark = "Mismatch (missing action)")) := by
  have hc : ∀ a : Action, shownComment a = if a.comment = some "" then none else a.comment := by
    intro a
    unfold shownComment truthy
    cases a.comment with
    | none => simp
    | some s => by_cases hs : s = "" <;> simp [hs]
  have self : ∀ {l : List Action} {a}, a ∈ l → Among l a := fun {l a} ha => ⟨a, ha, Same.refl a⟩
  unfold actionsReport
  simp only [List.mem_append, List.mem_map, List.mem_filter, Prod.exists, Bool.not_eq_true', mem_numbered]
  constructor
  · rintro (⟨n, a, ⟨h1, h2⟩, rfl⟩ | ⟨n, a, ⟨⟨h1, h2⟩, h3⟩, rfl⟩)
    · have ha : a ∈ idn := List.mem_of_getElem? h2
      refine ⟨n, a, h1, ?_⟩
      by_cases hm : hasAction (idn.filter (fun a => hasAction idn a && hasAction ref a)) a = true
      · rw [if_pos hm]
        rw [has_matching idn ref idn (Or.inl rfl) ha] at hm
        exact ⟨rfl, hc a, Or.inl ⟨h2, rfl, rfl, Or.inl ⟨hm.2, rfl, rfl, rfl⟩⟩⟩
      · rw [if_neg hm]
        rw [has_matching idn ref idn (Or.inl rfl) ha] at hm
        exact ⟨rfl, hc a, Or.inl ⟨h2, rfl, rfl, Or.inr ⟨fun h => hm ⟨self ha, h⟩, rfl, rfl, rfl⟩⟩⟩
    · have ha : a ∈ ref := List.mem_of_getElem? h2
      rw [Bool.eq_false_iff, Ne, has_matching idn ref ref (Or.inr rfl) ha] at h3
      exact ⟨n, a, h1, rfl, hc a, Or.inr ⟨h2, fun h => h3 ⟨h, self ha⟩, rfl, rfl, rfl, rfl, rfl⟩⟩
  · rintro ⟨n, a, h1, h2, h3, h4⟩
    obtain ⟨e1, e2, e3, e4, e5, e6, e7⟩ := e
    simp only at h2 h3 h4
    subst h2
    rw [← hc] at h3
    subst h3
    rcases h4 with ⟨h4, rfl, rfl, h5⟩ | ⟨h4, h5, rfl, rfl, rfl, rfl, rfl⟩
    · left
      have ha : a ∈ idn := List.mem_of_getElem? h4
      refine ⟨e2, a, ⟨h1, h4⟩, ?_⟩
      rcases h5 with ⟨h5, rfl, rfl, rfl⟩ | ⟨h5, rfl, rfl, rfl⟩
      · rw [if_pos ((has_matching idn ref idn (Or.inl rfl) ha).2 ⟨self ha, h5⟩)]
      · rw [if_neg (fun h => h5 ((has_matching idn ref idn (Or.inl rfl) ha).1 h).2)]
    · right
      have ha : a ∈ ref := List.mem_of_getElem? h4
      refine ⟨e2, a, ⟨⟨h1, h4⟩, ?_⟩, rfl⟩
      rw [Bool.eq_false_iff, Ne, has_matching idn ref ref (Or.inr rfl) ha]
      exact fun h => h5 h.1

/-- **C81** The order of the actions matches iff the table has actions and the actions of both tables come in
the same order in both. -/
theorem sequence_exact (idn ref : List Action) [DecidablePred (Among idn)] [DecidablePred (Among ref)] :
    (actionsReport idn ref).2 = .matched ↔
      idn ≠ [] ∧ List.Forall₂ Same (idn.filter (fun a => decide (Among ref a)))
        (ref.filter (fun a => decide (Among idn a))) := by
  have self : ∀ {l : List Action} {a}, a ∈ l → Among l a := fun {l a} ha => ⟨a, ha, Same.refl a⟩
  have e1 : idn.filter (fun a => hasAction idn a && hasAction ref a) = idn.filter (fun a => decide (Among ref a)) := by
    apply List.filter_congr
    intro a ha
    rw [Bool.eq_iff_iff, Bool.and_eq_true, hasAction_iff, hasAction_iff, decide_eq_true_eq]
    exact ⟨fun h => h.2, fun h => ⟨self ha, h⟩⟩
  have e2 : ref.filter (fun a => hasAction idn a && hasAction ref a) = ref.filter (fun a => decide (Among idn a)) := by
    apply List.filter_congr
    intro a ha
    rw [Bool.eq_iff_iff, Bool.and_eq_true, hasAction_iff, hasAction_iff, decide_eq_true_eq]
    exact ⟨fun h => h.1, fun h => ⟨h, self ha⟩⟩
  unfold actionsReport
  simp only [e1, e2]
  rw [← sameActions_iff]
  split
  · rename_i h; exact ⟨fun _ => h, fun _ => rfl⟩
  · rename_i h; exact ⟨fun h' => (by cases h'), fun h' => absurd h' h⟩

/-- **C77** (actions) -/
theorem _root_.Lgr.Props.C77.actions_functional (idn ref : List Action) :
    C77.Functional ((actionsReport idn ref).1.map (fun e => (e.result, e.remark))) := by
  refine C77.functional_of_table [(.matched, "Exact Match (action name and content are the same)"),
    (.manualCheck, "Mismatch (additional action)"), (.manualCheck, "Mismatch (missing action)")] ?_
    (by unfold C77.Functional; decide +kernel)
  intro p hp
  obtain ⟨e, he, rfl⟩ := List.mem_map.1 hp
  obtain ⟨_, _, _, _, _, ⟨_, _, _, ⟨_, _, h1, h2⟩ | ⟨_, _, h1, h2⟩⟩ | ⟨_, _, _, _, _, h1, h2⟩⟩ :=
    (comparison_exact idn ref e).1 he <;> simp [h1, h2]

/-- One action in common, whose set of variants is written in another order, one additional and one missing. -/
example :
    let a : Action := { disp := "blocked", anyVariant := ["x", "y"] }
    let b : Action := { disp := "valid" }
    let c : Action := { disp := "invalid", matchR := some "r" }
    ((actionsReport [a, b] [c, { a with anyVariant := ["y", "x", "y"], comment := some "z" }]).1.map
      (fun e => (e.fromIdn, e.number, e.result)) = [(true, 1, .matched), (true, 2, .manualCheck), (false, 1, .manualCheck)]) ∧
    (actionsReport [a, b] [c, a]).2 = .matched ∧ (actionsReport [a, b] [b, a]).2 = .manualCheck := by decide +kernel

end Lgr.Props.C81

namespace Lgr.Props.C77
open Lgr Review

/-- **C77** (language tags) -/
theorem tags_functional (info : String → TagInfo) (idn ref : List String) :
    Functional ((tagsReport info idn ref).flatMap (fun r => r.2.map (fun c => c.2))) := by
  refine functional_of_table [(.manualCheck, "Language tag may be included in the comment"),
    (.matched, "Exact match"),
    (.matched, "Consider minimizing the tag as per the RFC5646 and IANA subtag registry"),
    (.matched, "Language match"),
    (.matched, "The language tag in IDN Table relevant to the script tag in Reference LGR"),
    (.review, "The language tag in IDN Table and Reference LGR are mismatched")] ?_
    (by unfold Functional; decide +kernel)
  intro p hp
  simp only [List.mem_flatMap, List.mem_map, tagsReport] at hp
  obtain ⟨r, ⟨t, _, rfl⟩, c, hc, rfl⟩ := hp
  simp only [mem_sortAsc, List.mem_map] at hc
  obtain ⟨u, _, rfl⟩ := hc
  unfold compareTag
  split
  · simp
  simp only
  split; · simp
  split; · simp
  split
  · split <;> simp
  split <;> simp

/-- **C77** (rules) -/
theorem rules_functional (ri rr : List (String × String)) (idn ref : Repertoire) :
    Functional ((wleReport ri rr idn ref).map (fun e => (e.result, e.remark))) := by
  refine functional_of_table [(.subset, "Match as a subset (for the rules missing in IDN Table, " ++
      "applicable code points in Ref. LGR are not in IDN Table)"),
    (.manualCheck, "Mismatch (WLE rule only exists in Ref. LGR)"),
    (.manualCheck, "Mismatch (WLE rule only exists in IDN Table)"),
    (.matched, "Exact Match (matched names and content)"),
    (.manualCheck, "Check the content of the rule")] ?_
    (by unfold Functional; decide +kernel)
  intro p hp
  obtain ⟨e, he, rfl⟩ := List.mem_map.1 hp
  unfold wleReport at he
  simp only [List.mem_map] at he
  obtain ⟨n, _, rfl⟩ := he
  simp only
  unfold compareWle
  split
  · split <;> simp
  · simp
  · split <;> simp

end Lgr.Props.C77

namespace Lgr.Props.C82
open Lgr Review Repertoire

/-- The code point has the rule as a context rule. -/
def Uses (r : Repertoire) (n : String) (k : Seq) : Prop :=
  ∃ c, r.lookup k = some c ∧ n ≠ "" ∧ (c.attrs.whenR = some n ∨ c.attrs.notWhenR = some n)

/-- What the result on a rule means; `ri` and `rr` are its text in the two LGRs. -/
def Says (ri rr : Option String) (n : String) (idn ref : Repertoire) : Result → Prop
  | .matched => ri.isSome ∧ ri = rr ∧ ∀ k, Uses idn n k ↔ Uses ref n k
  | .subset => ri = none ∧ (∃ k, Uses ref n k) ∧ ∀ k, Uses ref n k → idn.hasCp k = false
  | .manualCheck =>
      (ri.isSome ∧ ¬ (ri = rr ∧ ∀ k, Uses idn n k ↔ Uses ref n k)) ∨
      (ri = none ∧ ¬ ((∃ k, Uses ref n k) ∧ ∀ k, Uses ref n k → idn.hasCp k = false))
  | _ => False

theorem mem_setAdd (d : List (String × List Seq)) (k n : String) (x y : Seq) :
    y ∈ (dget (setAdd d k x) n).getD [] ↔ y ∈ (dget d n).getD [] ∨ (k = n ∧ y = x) := by
  unfold setAdd
  simp only [dget_dset]
  by_cases h : k = n
  · subst h
    rw [if_pos rfl]
    by_cases hx : x ∈ (dget d k).getD []
    · simp only [if_pos hx, Option.getD_some, true_and]
      exact ⟨Or.inl, fun h => h.elim (fun h => h) (fun h => h ▸ hx)⟩
    · simp [if_neg hx]
  · simp [h]

theorem mem_refContext (l : List CharObj) (d : List (String × List Seq)) (n : String) (y : Seq) :
    y ∈ (dget (l.foldl (fun d c =>
      let d := if truthy c.attrs.whenR then setAdd d (c.attrs.whenR.getD "") c.cp else d
      if truthy c.attrs.notWhenR then setAdd d (c.attrs.notWhenR.getD "") c.cp else d) d) n).getD [] ↔
    y ∈ (dget d n).getD [] ∨
      ∃ c ∈ l, c.cp = y ∧ n ≠ "" ∧ (c.attrs.whenR = some n ∨ c.attrs.notWhenR = some n) := by
  induction l generalizing d with
  | nil => simp
  | cons a l ih =>
    rw [List.foldl_cons, ih]
    simp only [List.mem_cons, exists_eq_or_imp]
    rw [← or_assoc]
    apply or_congr_left
    have hw : ∀ (o : Option String) (d : List (String × List Seq)),
        y ∈ (dget (if truthy o = true then setAdd d (o.getD "") a.cp else d) n).getD [] ↔
        y ∈ (dget d n).getD [] ∨ (a.cp = y ∧ n ≠ "" ∧ o = some n) := by
      intro o d
      cases o with
      | none => simp [truthy]
      | some w =>
        by_cases hw : w = ""
        · subst hw
          simp only [truthy]
          simp
        · simp only [truthy, ne_eq, hw, not_false_eq_true, decide_true, if_true, mem_setAdd, Option.getD_some,
            Option.some.injEq]
          apply or_congr_right
          constructor
          · rintro ⟨rfl, rfl⟩; exact ⟨rfl, hw, rfl⟩
          · rintro ⟨rfl, _, rfl⟩; exact ⟨rfl, rfl⟩
    rw [hw, hw]
    tauto

theorem mem_idnContext (l : List CharObj) (hl : ∀ c ∈ l, c.attrs.whenR = none ∨ c.attrs.notWhenR = none)
    (d : List (String × List Seq)) (n : String) (y : Seq) :
    y ∈ (dget (l.foldl (fun d c =>
      if truthy c.attrs.whenR then setAdd d (c.attrs.whenR.getD "") c.cp
      else if truthy c.attrs.notWhenR then setAdd d (c.attrs.notWhenR.getD "") c.cp
      else d) d) n).getD [] ↔
    y ∈ (dget d n).getD [] ∨
      ∃ c ∈ l, c.cp = y ∧ n ≠ "" ∧ (c.attrs.whenR = some n ∨ c.attrs.notWhenR = some n) := by
  rw [← mem_refContext]
  suffices ∀ (l : List CharObj) (d : List (String × List Seq)),
      (∀ c ∈ l, c.attrs.whenR = none ∨ c.attrs.notWhenR = none) →
      l.foldl (fun d c =>
        if truthy c.attrs.whenR then setAdd d (c.attrs.whenR.getD "") c.cp
        else if truthy c.attrs.notWhenR then setAdd d (c.attrs.notWhenR.getD "") c.cp
        else d) d =
      l.foldl (fun d c =>
        let d := if truthy c.attrs.whenR then setAdd d (c.attrs.whenR.getD "") c.cp else d
        if truthy c.attrs.notWhenR then setAdd d (c.attrs.notWhenR.getD "") c.cp else d) d by
    rw [this l d hl]
  intro l
  induction l with
  | nil => intro d _; rfl
  | cons a l ih =>
    intro d hl
    rw [List.foldl_cons, List.foldl_cons, ih _ (fun c hc => hl c (by simp [hc]))]
    congr 1
    rcases hl a (by simp) with h | h <;> simp [h, truthy]

/-- The code points which use a rule in a table, as the review finds them. -/
theorem mem_idn {r : Repertoire} (h : WF r)
    (hb : ∀ k c, r.lookup k = some c → c.attrs.whenR = none ∨ c.attrs.notWhenR = none) (n : String) (y : Seq) :
    y ∈ (dget (idnContext r.allChars) n).getD [] ↔ Uses r n y := by
  unfold idnContext
  rw [mem_idnContext _ (fun c hc => hb _ c ((mem_allChars h c).1 hc))]
  simp only [dget, Option.getD_none, List.not_mem_nil, false_or, Uses]
  constructor
  · rintro ⟨c, hc, rfl, h2⟩; exact ⟨c, (mem_allChars h c).1 hc, h2⟩
  · rintro ⟨c, hc, h2⟩
    have := lookup_cp hc
    exact ⟨c, (mem_allChars h c).2 (this ▸ hc), this, h2⟩

theorem mem_iter {r : Repertoire} (h : WF r) (hn : ∀ k c, r.lookup k = some c → c.range = none) (c : CharObj) :
    c ∈ r.iter ↔ r.lookup c.cp = some c :=
  ⟨fun hc => C26.iter_mem h hc,
    fun hc => (C03.iterKeys_nonrange _ _ _ c (hn _ c hc)).2 ((C03.mem_full h c).2 (getChar_ok.2 hc))⟩

theorem mem_ref {r : Repertoire} (h : WF r) (hn : ∀ k c, r.lookup k = some c → c.range = none) (n : String) (y : Seq) :
    y ∈ (dget (refContext r.iter) n).getD [] ↔ Uses r n y := by
  unfold refContext
  rw [mem_refContext]
  simp only [dget, Option.getD_none, List.not_mem_nil, false_or, Uses]
  constructor
  · rintro ⟨c, hc, rfl, h2⟩; exact ⟨c, (mem_iter h hn c).1 hc, h2⟩
  · rintro ⟨c, hc, h2⟩
    have := lookup_cp hc
    exact ⟨c, (mem_iter h hn c).2 (this ▸ hc), this, h2⟩

theorem compare_exact {idn ref : Repertoire} (ri rr : Option String) (n : String) (ci cr cps : List Seq)
    (hi : ∀ y, y ∈ ci ↔ Uses idn n y) (hr : ∀ y, y ∈ cr ↔ Uses ref n y) (hc : ∀ y, y ∈ cps ↔ idn.hasCp y = true)
    (r : Result) : (compareWle ri rr ci cr cps).1 = r ↔ Says ri rr n idn ref r := by
  have h1 : (cr ≠ [] ∧ meets cps cr = false) ↔ (∃ k, Uses ref n k) ∧ ∀ k, Uses ref n k → idn.hasCp k = false := by
    refine and_congr ?_ ?_
    · constructor
      · intro h
        obtain ⟨x, hx⟩ := List.exists_mem_of_ne_nil _ h
        exact ⟨x, (hr x).1 hx⟩
      · rintro ⟨x, hx⟩ h
        have := (hr x).2 hx
        rw [h] at this; simp at this
    · rw [← not_iff_not, Bool.not_eq_false, C79.meets_iff]
      push_neg
      constructor
      · rintro ⟨x, h2, h3⟩; exact ⟨x, (hr x).1 h3, by rw [(hc x).1 h2]; simp⟩
      · rintro ⟨x, h2, h3⟩; exact ⟨x, (hc x).2 (by simpa using h3), (hr x).2 h2⟩
  have h2 : differ ci cr = false ↔ ∀ k, Uses idn n k ↔ Uses ref n k := by
    rw [C79.differ_iff]; exact forall_congr' fun k => iff_congr (hi k) (hr k)
  unfold compareWle
  cases ri with
  | none =>
    simp only
    by_cases h3 : cr ≠ [] ∧ meets cps cr = false
    · rw [if_pos h3]
      rw [h1] at h3
      cases r <;> simp [Says, h3]
      all_goals exact h3.2
    · rw [if_neg h3]
      rw [h1] at h3
      cases r <;> simp only [Says, h3] <;> simp
  | some a =>
    cases rr with
    | none => cases r <;> simp [Says]
    | some b =>
      simp only
      by_cases h3 : a = b ∧ differ ci cr = false
      · rw [if_pos h3]
        rw [h2] at h3
        cases r <;> simp [Says, h3]
      · rw [if_neg h3]
        rw [h2] at h3
        cases r <;> simp only [Says, Option.some.injEq, h3] <;> simp

/-- What **C82** says of a report on rules: it lists each rule of either LGR exactly once, in order, saying
where it is, and the result is what the rules and the repertoires say. -/
def Exact (ri rr : List (String × String)) (idn ref : Repertoire) : Prop :=
  ((wleReport ri rr idn ref).map WleEntry.name).Pairwise (· < ·) ∧
  (∀ n, n ∈ (wleReport ri rr idn ref).map WleEntry.name ↔ (dget ri n).isSome ∨ (dget rr n).isSome) ∧
  ∀ e ∈ wleReport ri rr idn ref,
    e.inIdn = (dget ri e.name).isSome ∧ e.inRef = (dget rr e.name).isSome ∧
    ∀ r, e.result = r ↔ Says (dget ri e.name) (dget rr e.name) e.name idn ref r

theorem mem_names {β : Type} {d : List (String × β)} {k : String} : k ∈ d.map Prod.fst ↔ (dget d k).isSome := by
  induction d with
  | nil => simp [dget]
  | cons p d ih =>
    obtain ⟨a, b⟩ := p
    by_cases h : a = k
    · subst h; simp [dget]
    · have h' : ¬ k = a := fun h1 => h h1.symm
      rw [List.map_cons, List.mem_cons, ih]
      simp [dget, h, h']

/-- **C82** holds for LGRs without ranges, and in which no code point has two context rules (which the API
does not let one add). -/
theorem rules_partial {idn ref : Repertoire} (hi : WF idn) (hr : WF ref)
    (hb : ∀ k c, idn.lookup k = some c → c.attrs.whenR = none ∨ c.attrs.notWhenR = none)
    (hni : ∀ k c, idn.lookup k = some c → c.range = none) (hnr : ∀ k c, ref.lookup k = some c → c.range = none)
    (ri rr : List (String × String)) : Exact ri rr idn ref := by
  have hcp : (wleReport ri rr idn ref).map WleEntry.name =
      sortAsc id (ri.map Prod.fst ++ rr.map Prod.fst).dedup := by
    unfold wleReport
    simp only [List.map_map]
    conv_rhs => rw [← List.map_id (sortAsc id _)]
    rfl
  refine ⟨?_, ?_, ?_⟩
  · rw [hcp]
    have h1 := sortAsc_sorted (id : String → String) (ri.map Prod.fst ++ rr.map Prod.fst).dedup
    have h2 := (sortAsc_perm (id : String → String) (ri.map Prod.fst ++ rr.map Prod.fst).dedup).nodup_iff.2
      (List.nodup_dedup _)
    exact (h1.and h2).imp (fun ⟨h3, h4⟩ => lt_of_le_of_ne h3 h4)
  · intro k
    rw [hcp, (sortAsc_perm _ _).mem_iff, List.mem_dedup, List.mem_append, mem_names, mem_names]
  · intro e he
    unfold wleReport at he
    simp only [List.mem_map] at he
    obtain ⟨k, _, rfl⟩ := he
    refine ⟨rfl, rfl, compare_exact _ _ k _ _ _ (mem_idn hi hb k) (mem_ref hr hnr k) ?_⟩
    intro y
    rw [hasCp_iff, Option.isSome_iff_exists, List.mem_map]
    constructor
    · rintro ⟨c, hc, rfl⟩; exact ⟨c, (mem_iter hi hni c).1 hc⟩
    · rintro ⟨c, hc⟩
      have := lookup_cp hc
      exact ⟨c, (mem_iter hi hni c).2 (this ▸ hc), this⟩

/-- A table with the range a-b and a rule for it. -/
def ranged (o : Opts) : Repertoire := (LGR.run {} [(C06.ctx0, .addRange 97 98 o)]).rep

/-- **C82** is violated: a rule with the same text, which the same code points have, is not reported as a match
if the code points are in a range; -/
theorem range_context : ¬ Exact [("r", "x")] [("r", "x")] (ranged { whenR := some "r" }) (ranged { whenR := some "r" }) := by
  intro h
  have h1 := h.2.2 ⟨"r", true, true, .manualCheck, "Check the content of the rule"⟩ (by decide +kernel)
  have h2 := (h1.2.2 .matched).2 ⟨rfl, rfl, fun _ => Iff.rfl⟩
  cases h2

/-- and a rule of the reference alone is said to be of no concern though a code point with this rule is in a
range of the table. -/
theorem range_subset :
    let ref := (LGR.run {} [(C06.ctx0, .addCp (.int 98) { whenR := some "r" })]).rep
    (wleReport [] [("r", "x")] (ranged {}) ref).map WleEntry.result = [.subset] ∧
    ¬ Says none (some "x") "r" (ranged {}) ref .subset := by
  refine ⟨by decide +kernel, ?_⟩
  rintro ⟨_, _, h⟩
  have h1 := h [98] ⟨(⟨[98], none, { whenR := some "r" }, []⟩ : CharObj), by decide +kernel⟩
  revert h1
  decide +kernel

/-- A rule in common, one of the reference alone whose code points the table has not. -/
example :
    let g (ops) : Repertoire := (LGR.run {} ops).rep
    let idn := g [(C06.ctx0, .addCp (.int 97) { whenR := some "r" })]
    let ref := g [(C06.ctx0, .addCp (.int 97) { whenR := some "r" }), (C06.ctx0, .addCp (.int 98) { notWhenR := some "s" })]
    (wleReport [("r", "x")] [("s", "y"), ("r", "x")] idn ref).map (fun e => (e.name, e.result)) =
      [("r", .matched), ("s", .subset)] := by decide +kernel

end Lgr.Props.C82

import Verif.ReviewTool
import Verif.Props.ReviewSelf
import Verif.Props.ReviewGeneral
import Verif.Props.ReviewTags

/-!
# C145: the review as a whole and its tool
-/

namespace Lgr.Props.C145
open Lgr Review Review.General ReviewTool Repertoire C83 C124

/-! ## Review of an LGR against itself -/

/-- The overall result of every part of the summary is a match. -/
def AllMatch (s : Summaries) : Prop :=
  s.languageTag.overall = .matched ∧ s.repertoire.overall = .matched ∧ s.variantSets.overall = .matched ∧
  s.classes.overall = .matched ∧ s.wle.overall = .matched ∧ s.actions.overall = .matched

/-- The functions of the environment are orders of sets. -/
structure Orders (E : Setting) : Prop where
  tags : ∀ l, (E.tags l).Perm l
  vars : ∀ l, (E.vars l).Perm l
  cps : ∀ l, (E.cps l).Perm l

/-- The classes which are not implicit are evaluated, or at least no exception other than the one which is caught. -/
def Evaluates (t : Table) : Prop :=
  ∀ c ∈ t.classes, c.2.2 = false → ∀ e, c.2.1 = .error e → e = .recursionError

theorem foldl_ok {α β : Type} {f : Except Err β → α → Except Err β} {l : List α}
    (h : ∀ a ∈ l, ∀ b, ∃ b', f (.ok b) a = .ok b') (b : β) : ∃ b', l.foldl f (.ok b) = .ok b' := by
  induction l generalizing b with
  | nil => exact ⟨b, rfl⟩
  | cons a l ih =>
    obtain ⟨b', hb⟩ := h a (by simp) b
    rw [List.foldl_cons, hb]
    exact ih (fun x hx => h x (List.mem_cons_of_mem _ hx)) b'

theorem members_ok {rep : List Nat} {l : List (String × Except Err CpSet × Bool)}
    (h : ∀ c ∈ l, c.2.2 = false → ∀ e, c.2.1 = .error e → e = .recursionError) :
    ∃ m, classMembers id rep l = .ok m := by
  refine foldl_ok (fun n hn ms => ?_) []
  rw [mem_sortAsc] at hn
  obtain ⟨⟨c, i⟩, hc⟩ : ∃ v, dget l n = some v := Option.isSome_iff_exists.1 (dget_isSome.2 hn)
  simp only [hc]
  cases i with
  | true => exact ⟨ms, rfl⟩
  | false =>
    cases c with
    | ok s => exact ⟨_, rfl⟩
    | error e =>
      have := h _ (mem_of_dget hc) rfl e rfl
      subst this
      exact ⟨_, rfl⟩

theorem acts_matched {a b : List Action} (h : ∀ x, x ∈ b ↔ x ∈ a) : ∀ e ∈ (actionsReport a b).1, e.result = .matched := by
  have ha : ∀ x ∈ a, (hasAction a x && hasAction b x) = true := by
    intro x hx
    rw [Bool.and_eq_true, C81.hasAction_iff, C81.hasAction_iff]
    exact ⟨⟨x, hx, .refl x⟩, ⟨x, (h x).2 hx, .refl x⟩⟩
  have hfa : a.filter (fun x => hasAction a x && hasAction b x) = a := List.filter_eq_self.2 ha
  have hfb : b.filter (fun x => hasAction a x && hasAction b x) = b :=
    List.filter_eq_self.2 (fun x hx => ha x ((h x).1 hx))
  intro e he
  unfold actionsReport at he
  simp only [hfa, hfb] at he
  rcases List.mem_append.1 he with he | he
  · obtain ⟨p, hp, rfl⟩ := List.mem_map.1 he
    have hpa : p.2 ∈ a := (List.of_mem_zip hp).2
    rw [if_pos (C81.hasAction_iff.2 ⟨p.2, hpa, .refl _⟩)]
  · obtain ⟨p, hp, rfl⟩ := List.mem_map.1 he
    obtain ⟨hp1, hp2⟩ := List.mem_filter.1 hp
    have hpb : p.2 ∈ b := (List.of_mem_zip hp1).2
    rw [C81.hasAction_iff.2 ⟨p.2, hpb, .refl _⟩] at hp2
    cases hp2

/-- What is supposed of an LGR: no ranges, no code point with two context rules, one language tag, and a review of the general
rules which does not meet the end of a sequence (see C83). -/
structure Plain (t : Table) (eligible : Seq → Bool) : Prop where
  wf : WF t.src.rep
  oneRule : ∀ k c, t.src.rep.lookup k = some c → c.attrs.whenR = none ∨ c.attrs.notWhenR = none
  noRange : ∀ k c, t.src.rep.lookup k = some c → c.range = none
  oneTag : ∃ tag, t.languages = [tag]
  evaluates : Evaluates t
  eligible : ∀ s, t.eligible s = .ok (eligible s)
  ends : ∀ p ∈ tested, ∀ l ∈ p.2, ¬ EndsSeq t.src.rep l

theorem review_actions {E : Setting} (hE : Orders E) {t : Table} {eligible : Seq → Bool} (h : Plain t eligible)
    {acts : List Action} (ha : ∀ x, x ∈ acts ↔ x ∈ t.actions) :
    ∃ r, review E t { t with actions := acts } = .ok r ∧ AllMatch r.summary ∧ r.header.idn = (t.name, t.version) ∧
      r.header.ref = some (t.name, t.version) ∧ r.sequence = (actionsReport t.actions acts).2 := by
  obtain ⟨sets, hs, -, hs2⟩ := C78.variant_sets h.wf hE.vars hE.cps
  obtain ⟨m, hm⟩ := members_ok (rep := singles t.src.rep) h.evaluates
  obtain ⟨cl, hcl, hcl2, -⟩ := C78.classes m (singles t.src.rep)
  obtain ⟨g, hg, -⟩ := report_partial E.db h.wf (some t.src) eligible h.ends
  have hel : t.eligible = fun s => .ok (eligible s) := funext h.eligible
  rw [← hel] at hg
  have hcls : classesOf t { t with actions := acts } = .ok cl := by simp only [classesOf, hm, hcl]
  obtain ⟨tag, htag⟩ := h.oneTag
  unfold review
  simp only [hs, hcls, hg]
  refine ⟨_, rfl, ⟨?_, ?_, ?_, ?_, ?_, ?_⟩, ?_, ?_, ?_⟩
  · apply C78.overall
    rw [htag, C78.tag_partial]
    simp
  · apply C78.overall
    intro p hp
    obtain ⟨e, he, rfl⟩ := List.mem_map.1 hp
    exact ((C78.repertoire (List.perm_nil.1 (hE.tags [])) h.wf).1 e he).1
  · exact hs2 _
  · apply C78.overall
    intro p hp
    obtain ⟨e, he, rfl⟩ := List.mem_map.1 hp
    exact hcl2 e he
  · apply C78.overall
    intro p hp
    obtain ⟨e, he, rfl⟩ := List.mem_map.1 hp
    exact C78.rules_partial h.wf h.oneRule h.noRange _ e he
  · apply C78.overall
    intro p hp
    obtain ⟨e, he, rfl⟩ := List.mem_map.1 hp
    exact acts_matched ha e he
  all_goals rfl

/-- **C145** but for LGRs with ranges, with code points having two context rules, and with several language tags, or none: the
review of an LGR against itself is made, names it twice, and all its summaries are matches. -/
theorem self_partial {E : Setting} (hE : Orders E) {t : Table} {eligible : Seq → Bool} (h : Plain t eligible) :
    ∃ r, review E t t = .ok r ∧ AllMatch r.summary ∧ r.header.idn = (t.name, t.version) ∧
      r.header.ref = some (t.name, t.version) := by
  obtain ⟨r, h1, h2, h3, h4, -⟩ := review_actions hE h (acts := t.actions) (fun _ => Iff.rfl)
  exact ⟨r, h1, h2, h3, h4⟩

/-- **C145** is violated: the summary does not have the result on the order of the actions. The reference LGR with the actions in
another order, which may give other dispositions to labels, is a match in all parts of the summary. -/
theorem order_wrong {E : Setting} (hE : Orders E) {t : Table} {eligible : Seq → Bool} (h : Plain t eligible)
    {acts : List Action} (ha : acts.Perm t.actions) (hd : sameActions t.actions acts = false) :
    ∃ r, review E t { t with actions := acts } = .ok r ∧ AllMatch r.summary ∧ r.sequence = .manualCheck := by
  obtain ⟨r, h1, h2, -, -, h5⟩ := review_actions hE h (fun _ => ha.mem_iff)
  refine ⟨r, h1, h2, ?_⟩
  rw [h5]
  have hm : ∀ x ∈ t.actions, (hasAction t.actions x && hasAction acts x) = true := by
    intro x hx
    rw [Bool.and_eq_true, C81.hasAction_iff, C81.hasAction_iff]
    exact ⟨⟨x, hx, .refl x⟩, ⟨x, ha.mem_iff.2 hx, .refl x⟩⟩
  unfold actionsReport
  simp only [List.filter_eq_self.2 hm, List.filter_eq_self.2 (fun x hx => hm x (ha.mem_iff.1 hx)), hd]
  simp

/-! ## What a match means -/

theorem overall_iff (l : List (Result × String)) : (handleReport l).overall = .matched ↔ ∀ p ∈ l, p.1 = .matched := by
  constructor
  · intro h p hp
    have := (C38.overall_worst l).1 p hp
    rw [h] at this
    cases hr : p.1 <;> rw [hr] at this <;> simp_all [Result.rank]
  · exact C78.overall

/-- Two language tags are the same, or the table's is known and has the language of the other or is relevant to its script (C127). -/
def TagMatch (info : String → TagInfo) (a b : String) : Prop :=
  C127.Same (info a) (info b) ∨ ((info a).unknown = false ∧ (C127.SameLanguage (info a) (info b) ∨ C127.Relevant (info a) (info b)))

theorem classes_of {t u : Table} {l : List ClassEntry} (h : classesOf t u = .ok l) :
    ∃ mt mu, classMembers id (singles t.src.rep) t.classes = .ok mt ∧ classMembers id (singles u.src.rep) u.classes = .ok mu ∧
      classesReport mt mu (singles t.src.rep) (singles u.src.rep) = .ok l := by
  unfold classesOf at h
  split at h
  · cases h
  rename_i mt hmt
  split at h
  · cases h
  rename_i mu hmu
  exact ⟨mt, mu, hmt, hmu, h⟩

/-- **C145** What the overall results of a review mean, of any two LGRs: the tags of the languages all match each other; the two have
the same code points, with the same tags and context rules; each action of the one is an action of the other. For the other parts
it means that all entries of the section, which is the one of these two LGRs, are matches. -/
theorem match_means {E : Setting} (hE : Orders E) {t u : Table} (ht : WF t.src.rep) (hu : WF u.src.rep) {r : Full}
    (he : review E t u = .ok r) :
    r.header.idn = (t.name, t.version) ∧ r.header.ref = some (u.name, u.version) ∧
    (r.summary.languageTag.overall = .matched ↔
      if t.languages = [] then u.languages = [] else ∀ a ∈ t.languages, ∀ b ∈ u.languages, TagMatch E.info a b) ∧
    (r.summary.repertoire.overall = .matched ↔
      ∀ k, t.src.rep.hasCp k = true ∨ u.src.rep.hasCp k = true → C80.Says (t.src.rep.lookup k) (u.src.rep.lookup k) .matched) ∧
    (r.summary.actions.overall = .matched ↔
      (∀ a ∈ t.actions, C81.Among u.actions a) ∧ ∀ a ∈ u.actions, C81.Among t.actions a) ∧
    (variantSetsReport E.vars E.cps t.src.rep u.src.rep = .ok r.variantSets ∧
      (r.summary.variantSets.overall = .matched ↔ ∀ s ∈ r.variantSets, ∀ x ∈ s.report, x.fwd.1 = .matched ∧ x.rev.1 = .matched)) ∧
    ((∃ mt mu, classMembers id (singles t.src.rep) t.classes = .ok mt ∧ classMembers id (singles u.src.rep) u.classes = .ok mu ∧
        classesReport mt mu (singles t.src.rep) (singles u.src.rep) = .ok r.classes) ∧
      (r.summary.classes.overall = .matched ↔ ∀ e ∈ r.classes, e.result = .matched)) ∧
    (r.wle = wleReport t.rules u.rules t.src.rep u.src.rep ∧ (r.summary.wle.overall = .matched ↔ ∀ e ∈ r.wle, e.result = .matched)) ∧
    general E.db t.src (some u.src) t.eligible = .ok r.general := by
  unfold review at he
  split at he
  · cases he
  rename_i sets hs
  split at he
  · cases he
  rename_i cls hc
  simp only at he
  split at he
  · cases he
  rename_i g hg
  injection he with he
  subst he
  refine ⟨rfl, rfl, ?_, ?_, ?_, ⟨hs, ?_⟩, ⟨classes_of hc, ?_⟩, ⟨rfl, ?_⟩, hg⟩
  · simp only [summarize, overall_iff, List.mem_flatMap, List.mem_map]
    obtain ⟨p1, -, p3⟩ := C127.tags_exact E.info t.languages u.languages
    have hv := C127.verdict E.info t.languages u.languages
    split
    · rename_i h0
      rw [if_pos h0] at p1
      constructor
      · intro h
        by_contra hne
        obtain ⟨b, hb⟩ := List.exists_mem_of_ne_nil _ hne
        obtain ⟨e, he, he1⟩ := List.mem_map.1 (p1.mem_iff.2 (List.mem_singleton.2 rfl))
        obtain ⟨c, hc, hc1⟩ := List.mem_map.1 (((p3 e he).1).mem_iff.2 hb)
        have := h (c.2.1, c.2.2) ⟨e, he, c, hc, rfl⟩
        obtain ⟨a, ha, -⟩ := (hv e he c hc).1.1 this
        rw [he1] at ha; cases ha
      · rintro h p ⟨e, he, c, hc, rfl⟩
        have := ((p3 e he).1).mem_iff.1 (List.mem_map_of_mem (f := fun c => c.1) hc)
        rw [h] at this; cases this
    · rename_i h0
      rw [if_neg h0] at p1
      constructor
      · intro h a ha b hb
        obtain ⟨e, he, he1⟩ := List.mem_map.1 (p1.mem_iff.2 (List.mem_map_of_mem (f := some) ha))
        obtain ⟨c, hc, hc1⟩ := List.mem_map.1 (((p3 e he).1).mem_iff.2 hb)
        obtain ⟨a', ha', h2⟩ := (hv e he c hc).1.1 (h (c.2.1, c.2.2) ⟨e, he, c, hc, rfl⟩)
        rw [he1] at ha'
        injection ha' with ha'
        rw [← ha', hc1] at h2
        exact h2
      · rintro h p ⟨e, he, c, hc, rfl⟩
        obtain ⟨a, ha, ha1⟩ := List.mem_map.1 (p1.mem_iff.1 (List.mem_map_of_mem (f := Prod.fst) he))
        exact (hv e he c hc).1.2 ⟨a, ha1.symm, h a ha c.1 (((p3 e he).1).mem_iff.1 (List.mem_map_of_mem (f := fun c => c.1) hc))⟩
  · simp only [summarize, overall_iff]
    obtain ⟨-, q2, q3⟩ := C80.report_exact (order := E.tags) (fun l x => (hE.tags l).mem_iff) ht hu
    constructor
    · intro h k hk
      obtain ⟨e, he, rfl⟩ := List.mem_map.1 ((q2 k).2 hk)
      exact ((q3 e he).2.2 .matched).1 (h _ (List.mem_map.2 ⟨e, he, rfl⟩))
    · intro h p hp
      obtain ⟨e, he, rfl⟩ := List.mem_map.1 hp
      exact ((q3 e he).2.2 .matched).2 (h e.cp ((q2 e.cp).1 (List.mem_map_of_mem he)))
  · simp only [summarize, overall_iff]
    constructor
    · intro h
      have hm : ∀ e ∈ (actionsReport t.actions u.actions).1, e.result = .matched :=
        fun e he => h _ (List.mem_map.2 ⟨e, he, rfl⟩)
      constructor
      · intro a ha
        by_contra hno
        obtain ⟨n, hn, rfl⟩ := List.mem_iff_getElem.1 ha
        have := hm ⟨true, n + 1, if (t.actions[n]).comment = some "" then none else (t.actions[n]).comment, true, false, .manualCheck,
          "Mismatch (additional action)"⟩ ((C81.comparison_exact _ _ _).2 ⟨n + 1, t.actions[n], by omega, rfl, rfl,
            .inl ⟨by simp [List.getElem?_eq_getElem hn], rfl, rfl, .inr ⟨hno, rfl, rfl, rfl⟩⟩⟩)
        cases this
      · intro a ha
        by_contra hno
        obtain ⟨n, hn, rfl⟩ := List.mem_iff_getElem.1 ha
        have := hm ⟨false, n + 1, if (u.actions[n]).comment = some "" then none else (u.actions[n]).comment, false, true, .manualCheck,
          "Mismatch (missing action)"⟩ ((C81.comparison_exact _ _ _).2 ⟨n + 1, u.actions[n], by omega, rfl, rfl,
            .inr ⟨by simp [List.getElem?_eq_getElem hn], hno, rfl, rfl, rfl, rfl, rfl⟩⟩)
        cases this
    · rintro ⟨h1, h2⟩ p hp
      obtain ⟨e, he, rfl⟩ := List.mem_map.1 hp
      obtain ⟨n, a, -, -, -, ⟨h3, -, -, h4⟩ | ⟨h3, h4, -⟩⟩ := (C81.comparison_exact _ _ _).1 he
      · rcases h4 with ⟨-, -, h5, -⟩ | ⟨h4, -⟩
        · exact h5
        · exact absurd (h1 a (List.mem_of_getElem? h3)) h4
      · exact absurd (h2 a (List.mem_of_getElem? h3)) h4
  · simp only [summarize, overall_iff, setsResults, List.mem_flatMap]
    constructor
    · intro h s hs x hx
      exact ⟨h (x.fwd.1, x.fwd.2 ++ suffix E.glyph x.missing) ⟨s, hs, x, hx, by simp⟩,
        h (x.rev.1, x.rev.2 ++ suffix E.glyph x.missing) ⟨s, hs, x, hx, by simp⟩⟩
    · rintro h p ⟨s, hs, x, hx, hp⟩
      simp only [List.mem_cons, List.not_mem_nil, or_false] at hp
      rcases hp with rfl | rfl
      · exact (h s hs x hx).1
      · exact (h s hs x hx).2
  · simp only [summarize, overall_iff, List.forall_mem_map]
  · simp only [summarize, overall_iff, List.forall_mem_map]

/-! ## The tool -/

theorem readAll_ok {read : String → Except Err (Option Table)} {T : String → Option Table} {fs : List String}
    (h : ∀ f ∈ fs, read f = .ok (T f)) : readAll read fs = .ok (fs.map T) := by
  induction fs with
  | nil => rfl
  | cons f fs ih =>
    rw [readAll, h f (by simp)]
    simp only [ih (fun g hg => h g (List.mem_cons_of_mem _ hg)), List.map_cons]

theorem writeAll_ok {E : Setting} {R : Option Table × Option Table → Full} {ps : List (Option Table × Option Table)}
    (h : ∀ p ∈ ps, reviewOf E p = .ok (R p)) (out : Files) :
    writeAll E out ps = (ps.foldl (fun o p => dset o (fileName p) (some (R p))) out, .ok ()) := by
  induction ps generalizing out with
  | nil => rfl
  | cons p ps ih =>
    rw [writeAll, h p (by simp)]
    exact ih (fun q hq => h q (List.mem_cons_of_mem _ hq)) _

theorem dget_written {R : Option Table × Option Table → Full} (ps : List (Option Table × Option Table)) (out : Files) (n : String) :
    dget (ps.foldl (fun o p => dset o (fileName p) (some (R p))) out) n =
      match ps.reverse.find? (fun p => fileName p = n) with
      | some p => some (some (R p))
      | none => dget out n := by
  induction ps generalizing out with
  | nil => rfl
  | cons p ps ih =>
    rw [List.foldl_cons, ih, List.reverse_cons, List.find?_append]
    cases hf : ps.reverse.find? (fun p => fileName p = n) with
    | some q => simp
    | none =>
      simp only [Option.none_or, List.find?_cons, List.find?_nil]
      by_cases hp : fileName p = n
      · simp [hp, dget_dset]
      · simp [hp, Ne.symm hp, dget_dset]

/-- What is named: the name of the table, an underscore, the name of the reference LGR and the suffix. -/
def named (a b : String) : String := a ++ "_" ++ b ++ ".json"

/-- **C145** but for files which are not read, and for reports which go to the same file: the tool ends, there is one report for
each table with each reference LGR, which is the review of the two, and there is no other file. -/
theorem tool_partial (E : Setting) {ord : List String → List String} (ho : ∀ l f, f ∈ ord l ↔ f ∈ l)
    {read : String → Except Err (Option Table)} {tables refs : List String} {T : String → Table}
    (hT : ∀ f ∈ tables ++ refs, read f = .ok (some (T f))) {R : String → String → Full}
    (hR : ∀ f ∈ tables, ∀ g ∈ refs, review E (T f) (T g) = .ok (R f g))
    (hn : ∀ f ∈ tables, ∀ g ∈ refs, ∀ f' ∈ tables, ∀ g' ∈ refs,
      named (T f).name (T g).name = named (T f').name (T g').name → f = f' ∧ g = g') :
    (main E ord read tables refs).2 = .ok () ∧
    ∀ n r, dget (main E ord read tables refs).1 n = some r ↔
      ∃ f ∈ tables, ∃ g ∈ refs, n = named (T f).name (T g).name ∧ r = some (R f g) := by
  have h1 : readAll read (ord refs) = .ok ((ord refs).map (fun f => some (T f))) :=
    readAll_ok (fun f hf => hT f (List.mem_append_right _ ((ho _ _).1 hf)))
  have h2 : readAll read (ord tables) = .ok ((ord tables).map (fun f => some (T f))) :=
    readAll_ok (fun f hf => hT f (List.mem_append_left _ ((ho _ _).1 hf)))
  obtain ⟨ps, hps⟩ : ∃ ps, ps = ((ord tables).map (fun f => some (T f))).flatMap
      (fun t => ((ord refs).map (fun f => some (T f))).map (fun u => (t, u))) := ⟨_, rfl⟩
  have hm : ∀ p, p ∈ ps ↔ ∃ f ∈ tables, ∃ g ∈ refs, p = (some (T f), some (T g)) := by
    intro p
    rw [hps]
    simp only [List.mem_flatMap, List.mem_map, exists_exists_and_eq_and, ho]
    constructor
    · rintro ⟨f, hf, g, hg, rfl⟩; exact ⟨f, hf, g, hg, rfl⟩
    · rintro ⟨f, hf, g, hg, rfl⟩; exact ⟨f, hf, g, hg, rfl⟩
  obtain ⟨Q, hQ⟩ : ∃ Q : Option Table × Option Table → Full, ∀ p ∈ ps, reviewOf E p = .ok (Q p) := by
    by_cases hne : ps = []
    · subst hne
      exact ⟨fun p => match reviewOf E p with | .ok r => r | .error _ => ⟨⟨("", none), none⟩, [], [], [], [], [], [], [],
        ⟨(false, none), (false, none), (false, none), (false, none), (false, none)⟩, [], .matched,
        ⟨handleReport [], handleReport [], handleReport [], handleReport [], handleReport [], handleReport []⟩⟩, by simp⟩
    · obtain ⟨p0, hp0⟩ := List.exists_mem_of_ne_nil ps hne
      obtain ⟨f0, -, g0, -, -⟩ := (hm p0).1 hp0
      refine ⟨fun p => match reviewOf E p with | .ok r => r | .error _ => R f0 g0, fun p hp => ?_⟩
      obtain ⟨f, hf, g, hg, rfl⟩ := (hm p).1 hp
      simp only [reviewOf, hR f hf g hg]
  have hmain : main E ord read tables refs =
      (ps.foldl (fun o p => dset o (fileName p) (some (Q p))) [], .ok ()) := by
    unfold main
    rw [h1, h2]
    simp only
    rw [← hps, writeAll_ok hQ]
  have hQR : ∀ f ∈ tables, ∀ g ∈ refs, Q (some (T f), some (T g)) = R f g := by
    intro f hf g hg
    have := hQ _ ((hm _).2 ⟨f, hf, g, hg, rfl⟩)
    simp only [reviewOf, hR f hf g hg, Except.ok.injEq] at this
    exact this.symm
  rw [hmain]
  refine ⟨rfl, fun n r => ?_⟩
  rw [dget_written]
  cases hf : ps.reverse.find? (fun p => fileName p = n) with
  | none =>
    simp only [dget]
    constructor
    · intro h; simp at h
    · rintro ⟨f, hf', g, hg, rfl, rfl⟩
      rw [List.find?_eq_none] at hf
      have := hf (some (T f), some (T g)) (by rw [List.mem_reverse, hm]; exact ⟨f, hf', g, hg, rfl⟩)
      simp [fileName, shown, named] at this
  | some p =>
    have hp := List.mem_of_find?_eq_some hf
    have hpn := List.find?_some hf
    rw [List.mem_reverse, hm] at hp
    obtain ⟨f, hf', g, hg, rfl⟩ := hp
    have hpn : named (T f).name (T g).name = n := of_decide_eq_true hpn
    simp only [Option.some.injEq]
    rw [hQR f hf' g hg]
    constructor
    · rintro rfl; exact ⟨f, hf', g, hg, hpn.symm, rfl⟩
    · rintro ⟨f', hf2, g', hg2, e, rfl⟩
      obtain ⟨rfl, rfl⟩ := hn f hf' g hg f' hf2 g' hg2 (by rw [hpn, e])
      rfl

theorem writeAll_raises {E : Setting} {ps : List (Option Table × Option Table)} (h : ∃ p ∈ ps, p.1 = none ∨ p.2 = none) (out : Files) :
    ∃ e, (writeAll E out ps).2 = .error e := by
  induction ps generalizing out with
  | nil => simp at h
  | cons p ps ih =>
    rw [writeAll]
    cases hr : reviewOf E p with
    | error e => exact ⟨e, rfl⟩
    | ok r =>
      refine ih ?_ _
      obtain ⟨q, hq, hq2⟩ := h
      rcases List.mem_cons.1 hq with rfl | hq
      · exfalso
        obtain ⟨a, b⟩ := q
        cases a <;> cases b <;> simp_all [reviewOf]
      · exact ⟨q, hq, hq2⟩

/-- **C145** is violated: when a file has no LGR the tool says that it skips it, and raises an exception. -/
theorem skip_wrong (E : Setting) {ord : List String → List String} (ho : ∀ l f, f ∈ ord l ↔ f ∈ l)
    {read : String → Except Err (Option Table)} {tables refs : List String} (ht : tables ≠ []) (hr : refs ≠ [])
    {T : String → Option Table} (hT : ∀ f ∈ tables ++ refs, read f = .ok (T f)) (hnone : ∃ f ∈ tables ++ refs, T f = none) :
    ∃ e, (main E ord read tables refs).2 = .error e := by
  unfold main
  rw [readAll_ok (fun f hf => hT f (List.mem_append_right _ ((ho _ _).1 hf))),
    readAll_ok (fun f hf => hT f (List.mem_append_left _ ((ho _ _).1 hf)))]
  apply writeAll_raises
  obtain ⟨f, hf, hn⟩ := hnone
  obtain ⟨f0, h0⟩ := List.exists_mem_of_ne_nil _ ht
  obtain ⟨g0, h1⟩ := List.exists_mem_of_ne_nil _ hr
  rcases List.mem_append.1 hf with hf | hf
  · refine ⟨(T f, T g0), ?_, .inl hn⟩
    simp only [List.mem_flatMap, List.mem_map, exists_exists_and_eq_and, ho]
    exact ⟨f, hf, g0, h1, rfl⟩
  · refine ⟨(T f0, T f), ?_, .inr hn⟩
    simp only [List.mem_flatMap, List.mem_map, exists_exists_and_eq_and, ho]
    exact ⟨f0, h0, f, hf, rfl⟩

/-! ## Core requirements -/

theorem count_split {α : Type} (p : α → Bool) (l : List α) : (l.filter p).length + (l.filter (fun x => !p x)).length = l.length := by
  induction l with
  | nil => rfl
  | cons a l ih => cases h : p a <;> simp [h] <;> omega

theorem notPvalid_iff {idna : Nat → String} {c : CharObj} (hc : c.cp ≠ []) :
    notPvalid idna c = false ↔ ∀ x ∈ c.cp, idna x = "PVALID" := by
  simp [notPvalid, hc]

theorem countDigits_eq (db : Db) (l : List CharObj) : countDigits db l = (digitsOf db l).length := by
  unfold countDigits
  suffices H : ∀ n, l.foldl (fun n c => if c.cp.length = 1 then if db.isDigit (c.cp.headD 0) then n + 1 else n else n) n =
      n + (digitsOf db l).length by simpa using H 0
  induction l with
  | nil => intro n; rfl
  | cons c l ih =>
    intro n
    rw [List.foldl_cons, ih]
    unfold digitsOf
    rcases hc : c.cp with _ | ⟨x, _ | ⟨y, m⟩⟩
    · simp [List.filterMap_cons, hc]
    · rw [List.filterMap_cons]
      simp only [hc]
      cases hd : db.isDigit x <;> simp [hd] <;> omega
    · simp [List.filterMap_cons, hc]

theorem core_of {E : Setting} {t : Table} {c : Core} (he : core E t = .ok c) :
    c.invalid = (t.src.rep.allChars.filter (notPvalid E.idna)).length ∧ c.pvalid = t.src.rep.allChars.length - c.invalid ∧
    (c.manyDigitSets = true ↔ countDigits E.db t.src.rep.allChars > 10) ∧ c.header.idn = (t.name, t.version) ∧ c.header.ref = none := by
  unfold core at he
  split at he
  · cases he
  · injection he with he
    subst he
    exact ⟨rfl, rfl, by simp, rfl, rfl⟩

/-- **C145** The numbers of the review of core requirements: how many entries of the table are of `PVALID` code points only, and
how many are not. -/
theorem core_numbers {E : Setting} {t : Table} (h : WF t.src.rep) {c : Core} (he : core E t = .ok c) {s : Finset Seq}
    (hs : ∀ k, k ∈ s ↔ t.src.rep.hasCp k = true) :
    c.pvalid = (s.filter (fun k => ∀ x ∈ k, E.idna x = "PVALID")).card ∧
    c.invalid = (s.filter (fun k => ∃ x ∈ k, E.idna x ≠ "PVALID")).card := by
  obtain ⟨h1, h2, -⟩ := core_of he
  have hne : ∀ c ∈ t.src.rep.allChars, c.cp ≠ [] := by
    intro c hc
    unfold Repertoire.allChars at hc
    obtain ⟨p, hp, hc⟩ := List.mem_flatMap.1 hc
    obtain ⟨u, hu⟩ := h.filed p hp c hc
    rw [hu]; simp
  have key : ∀ p : CharObj → Bool, (t.src.rep.allChars.filter p).length =
      ((t.src.rep.allChars.filter p).map CharObj.cp).toFinset.card := by
    intro p
    rw [List.toFinset_card_of_nodup, List.length_map]
    exact (allChars_nodup h).sublist (List.filter_sublist.map _)
  have hin : ∀ k, k ∈ s ↔ ∃ c ∈ t.src.rep.allChars, c.cp = k := by
    intro k
    rw [hs, hasCp_iff, Option.isSome_iff_exists]
    constructor
    · rintro ⟨c, hc⟩
      exact ⟨c, (mem_allChars h c).2 (by rw [lookup_cp hc]; exact hc), lookup_cp hc⟩
    · rintro ⟨c, hc, rfl⟩
      exact ⟨c, (mem_allChars h c).1 hc⟩
  have hinv : c.invalid = (s.filter (fun k => ∃ x ∈ k, E.idna x ≠ "PVALID")).card := by
    rw [h1, key]
    congr 1
    ext k
    simp only [List.mem_toFinset, List.mem_map, List.mem_filter, Finset.mem_filter, hin]
    constructor
    · rintro ⟨c, ⟨hc, hp⟩, rfl⟩
      refine ⟨⟨c, hc, rfl⟩, ?_⟩
      by_contra hno
      have : notPvalid E.idna c = false := (notPvalid_iff (hne c hc)).2 (fun x hx => by
        by_contra hx2; exact hno ⟨x, hx, hx2⟩)
      rw [this] at hp; cases hp
    · rintro ⟨⟨c, hc, rfl⟩, x, hx, hx2⟩
      refine ⟨c, ⟨hc, ?_⟩, rfl⟩
      cases hp : notPvalid E.idna c
      · exact absurd ((notPvalid_iff (hne c hc)).1 hp x hx) hx2
      · rfl
  refine ⟨?_, hinv⟩
  have h3 := count_split (notPvalid E.idna) t.src.rep.allChars
  rw [h2, h1]
  have : (s.filter (fun k => ∀ x ∈ k, E.idna x = "PVALID")).card =
      (t.src.rep.allChars.filter (fun x => !notPvalid E.idna x)).length := by
    rw [key]
    congr 1
    ext k
    simp only [List.mem_toFinset, List.mem_map, List.mem_filter, Finset.mem_filter, hin, Bool.not_eq_true']
    constructor
    · rintro ⟨⟨c, hc, rfl⟩, hx⟩
      exact ⟨c, ⟨hc, (notPvalid_iff (hne c hc)).2 hx⟩, rfl⟩
    · rintro ⟨c, ⟨hc, hp⟩, rfl⟩
      exact ⟨⟨c, hc, rfl⟩, (notPvalid_iff (hne c hc)).1 hp⟩
  omega

/-- **C145** When the review of core requirements says that there are several sets of digits, there are. -/
theorem core_digits {E : Setting} {t : Table} (h : WF t.src.rep) {c : Core} (he : core E t = .ok c) {first : Nat → Nat}
    (hd : DigitSets E.db first) (hm : c.manyDigitSets = true) : Mixed E.db first t.src := by
  obtain ⟨-, -, h3, -⟩ := core_of he
  refine mixed_of_many hd h none ?_
  rw [(flags_exact E.db h none).2.2.2 _ (digits_finset E.db h), List.toFinset_card_of_nodup (digitsOf_nodup (allChars_nodup h)),
    ← countDigits_eq]
  exact h3.1 hm

/-! ## Examples and violations -/

/-- Everything in one order, no tags. -/
def set1 : Setting :=
  { tags := id, vars := id, cps := id, info := fun t => { language := t, script := "", unknown := false, suppress := false, langScript := none },
    db := db1, glyph := fun _ => "", idna := fun x => if x < 0x80 then "PVALID" else "DISALLOWED" }

theorem set1_orders : Orders set1 := ⟨fun _ => .refl _, fun _ => .refl _, fun _ => .refl _⟩

/-- A table, by its name. -/
def tab (name : String) (cps : List Nat) : Table :=
  { name := name, version := some "1", languages := ["fr"], src := table cps [some "fr"] [],
    classes := [("c", .ok (fun x => decide (x = 0x61)), false)], rules := [("r", "x")],
    actions := [{ disp := "invalid", matchR := some "r" }, { disp := "valid", matchR := some "r" }],
    eligible := fun _ => .ok true }

/-- Hypotheses of `self_partial`. -/
theorem tab_plain (name : String) : Plain (tab name [0x2D, 0x61, 0x62]) (fun _ => true) where
  wf := table_wf _ _ _
  oneRule k c hk := by
    have h1 := (mem_allChars (table_wf _ _ _) c).2 (by rw [lookup_cp hk]; exact hk)
    have : ∀ c ∈ (table [0x2D, 0x61, 0x62] [some "fr"] []).rep.allChars, c.attrs.whenR = none ∨ c.attrs.notWhenR = none := by
      decide +kernel
    exact this c h1
  noRange k c hk := by
    have h1 := (mem_allChars (table_wf _ _ _) c).2 (by rw [lookup_cp hk]; exact hk)
    have : ∀ c ∈ (table [0x2D, 0x61, 0x62] [some "fr"] []).rep.allChars, c.range = none := by decide +kernel
    exact this c h1
  oneTag := ⟨"fr", rfl⟩
  evaluates c hc _ e he := by
    simp only [tab, List.mem_singleton] at hc
    subst hc
    cases he
  eligible _ := rfl
  ends _ _ l _ := no_ends (fun k hk => by
    simpa using entries (table_wf [0x2D, 0x61, 0x62] [some "fr"] []) (p := fun k => decide (k.length = 1)) (by decide +kernel) k hk) l

example : ∃ r, review set1 (tab "t" [0x2D, 0x61, 0x62]) (tab "t" [0x2D, 0x61, 0x62]) = .ok r ∧ AllMatch r.summary :=
  let ⟨r, h, h2, _⟩ := self_partial set1_orders (tab_plain "t")
  ⟨r, h, h2⟩

/-- Hypotheses of `order_wrong`: with one order of the actions labels which the rule matches are invalid, with the other they are
valid. -/
example : (tab "t" []).actions.reverse.Perm (tab "t" []).actions ∧
    sameActions (tab "t" []).actions (tab "t" []).actions.reverse = false ∧
    (C120.env1.testEligible (table [0x61] [] []).rep (tab "t" []).actions [0x61]).map (·.ok) = .ok false ∧
    (C120.env1.testEligible (table [0x61] [] []).rep (tab "t" []).actions.reverse [0x61]).map (·.ok) = .ok true :=
  ⟨List.reverse_perm _, by decide +kernel, by decide +kernel, by decide +kernel⟩

/-- What is in the files of a folder: for each the names of the table and of the reference LGR. -/
def told (f : Files) : List (String × Option (String × Option (String × Option String))) :=
  f.map (fun p => (p.1, p.2.map (fun r => (r.header.idn.1, r.header.ref))))

/-- The number of entries of the report on the repertoire, in the files. -/
def sizes (f : Files) : List (String × Option Nat) := f.map (fun p => (p.1, p.2.map (fun r => r.repertoire.length)))

/-- Two tables and two reference LGRs. -/
def files1 (f : String) : Except Err (Option Table) :=
  if f = "d/t.xml" then .ok (some (tab "t.xml" [0x61])) else if f = "e/t.xml" then .ok (some (tab "t.xml" [0x61, 0x62]))
  else if f = "x" then .ok (some (tab "x" [0x61])) else if f = "x_y" then .ok (some (tab "x_y" [0x61]))
  else if f = "y_z" then .ok (some (tab "y_z" [0x61])) else if f = "z" then .ok (some (tab "z" [0x61]))
  else .ok none

example : (main set1 id files1 ["x", "d/t.xml"] ["z"]).2 = .ok () ∧
    told (main set1 id files1 ["x", "d/t.xml"] ["z"]).1 =
      [("x_z.json", some ("x", some ("z", some "1"))), ("t.xml_z.json", some ("t.xml", some ("z", some "1")))] := by
  constructor <;> decide +kernel

/-- **C145** is violated: tables in different folders with the same file name have one report, the one of the last of them in the
order of the set. -/
theorem same_name_wrong : (main set1 id files1 ["d/t.xml", "e/t.xml"] ["z"]).2 = .ok () ∧
    sizes (main set1 id files1 ["d/t.xml", "e/t.xml"] ["z"]).1 = [("t.xml_z.json", some 2)] ∧
    sizes (main set1 id files1 ["e/t.xml", "d/t.xml"] ["z"]).1 = [("t.xml_z.json", some 1)] := by
  refine ⟨?_, ?_, ?_⟩ <;> decide +kernel

/-- **C145** is violated even if the names of the files are all different: the underscore does not tell where the first name ends. -/
theorem underscore_wrong : (main set1 id files1 ["x", "x_y"] ["y_z", "z"]).2 = .ok () ∧
    told (main set1 id files1 ["x", "x_y"] ["y_z", "z"]).1 =
      [("x_y_z.json", some ("x_y", some ("z", some "1"))), ("x_z.json", some ("x", some ("z", some "1"))),
       ("x_y_y_z.json", some ("x_y", some ("y_z", some "1")))] := by
  constructor <;> decide +kernel

/-- A file without LGR: an empty report under the name `None`, and the exception. -/
example : (main set1 id files1 ["none", "x"] ["z"]).2 = .error .attributeError ∧
    told (main set1 id files1 ["none", "x"] ["z"]).1 = [("None_z.json", none)] := by
  constructor <;> decide +kernel

/-- **C145** is violated: a table with two digits from two sets. -/
theorem core_digits_wrong : ∃ (E : Setting) (first : Nat → Nat) (t : Table), DigitSets E.db first ∧ WF t.src.rep ∧
    Mixed E.db first t.src ∧ ∃ c, core E t = .ok c ∧ c.manyDigitSets = false := by
  refine ⟨set1, fun x => if x < 0x3A then 0x30 else 0x660, tab "t" [0x30, 0x660], ?_, table_wf _ _ _, ?_, ?_⟩
  · intro x hx
    simp only [set1, db1, Bool.or_eq_true, decide_eq_true_eq] at hx
    by_cases h : x < 0x3A
    · simp only [if_pos h]; omega
    · simp only [if_neg h]; omega
  · exact ⟨0x30, 0x660, by decide +kernel, by decide +kernel, by decide +kernel, by decide +kernel, by decide +kernel⟩
  · refine ⟨⟨⟨("t", some "1"), none⟩, 1, 1, false, ⟨(false, none), (false, none), (false, none), (false, none), (false, none)⟩⟩,
      by decide +kernel, rfl⟩

/-- Eleven digits. -/
example : (core set1 (tab "t" [0x30, 0x31, 0x32, 0x33, 0x34, 0x35, 0x36, 0x37, 0x38, 0x39, 0x660])).toOption.map
    (fun c => (c.pvalid, c.invalid, c.manyDigitSets)) = some (10, 1, true) := by decide +kernel

end Lgr.Props.C145

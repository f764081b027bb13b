import Verif.Props.LabelInput
import Verif.Props.DocLabelsEx

/-!
# C110 Annotated files

`lgr/tools/annotate.py`: one block per label read, with the disposition of the label, the action that refused it,
and the code points that are not accepted.
-/

namespace Lgr.Props.C110
open Lgr LabelInput Repertoire FullEnv

/-! ## What is written about a label -/

/-- What there is to write about a label read. -/
inductive Tells (env : FullEnv) (r : Repertoire) (actions : List Action) (str : Err → String) (x : Read) :
    Block → Prop where
  | error : x.valid = false → Tells env r actions str x ⟨x.label, x.errorText str, none, []⟩
  /-- Code points are refused. -/
  | refused (p : Env.Prelim) : x.valid = true → env.prelim r x.label = .ok p → p.ok = false →
      Tells env r actions str x ⟨x.label, "invalid", none, p.invalid⟩
  /-- An action decides. -/
  | decided (el : Eligible) (s : String) : x.valid = true → Accepted env r x.label →
      env.testEligible r actions x.label = .ok el → el.disp = some s → s ≠ "invalid" →
      Tells env r actions str x ⟨x.label, s, none, []⟩
  | rejected (el : Eligible) (a : Action) (pre post : List Action) : x.valid = true → Accepted env r x.label →
      env.testEligible r actions x.label = .ok el → el.disp = some "invalid" →
      actions ++ defaultActions = pre ++ a :: post → el.idx = (pre.length : Int) →
      Tells env r actions str x ⟨x.label, "invalid", some (el.idx, a), []⟩

/-- The first action rejects the label, and is not named. -/
def Unnamed (env : FullEnv) (r : Repertoire) (actions : List Action) (x : Read) (b : Block) : Prop :=
  x.valid = true ∧ Accepted env r x.label ∧ (∃ el, env.testEligible r actions x.label = .ok el ∧
    el.disp = some "invalid" ∧ el.idx = 0) ∧ b = ⟨x.label, "invalid", none, []⟩

/-- Outcome of `test_label_eligible`: refused code points, or the action that decides. -/
theorem eligible_cases {env : FullEnv} {r : Repertoire} {actions : List Action} {l : Seq} {el : Eligible}
    (h : env.testEligible r actions l = .ok el) :
    (∃ p, env.prelim r l = .ok p ∧ p.ok = false ∧ el.ok = false ∧ el.disp = some "invalid" ∧ el.idx = -1 ∧
      el.invalid = p.invalid) ∨
    Accepted env r l ∧ el.invalid = [] ∧ ∃ s pre a post, el.disp = some s ∧ (el.ok = true ↔ s ≠ "invalid") ∧
      actions ++ defaultActions = pre ++ a :: post ∧ el.idx = (pre.length : Int) ∧ s = a.disp := by
  unfold testEligible at h
  split at h
  · cases h
  · split at h
    · cases h
    · rename_i p hp
      split at h
      · rename_i hok
        cases h
        exact .inl ⟨p, hp, by simpa using hok, rfl, rfl, rfl, rfl⟩
      · rename_i hok
        refine .inr ⟨⟨p, hp, by simpa using hok⟩, ?_⟩
        split at h
        · cases h
        · rename_i d i hd
          unfold testDisposition at hd
          split at hd
          · cases hd
          · obtain ⟨s, rfl, pre, a, post, h1, h2, h3, -⟩ := decides_of_ok hd
            split at h
            · rename_i hs
              cases h
              cases hs
              exact ⟨rfl, _, pre, a, post, rfl, by simp, h1, h2, h3⟩
            · rename_i hs
              cases h
              exact ⟨rfl, _, pre, a, post, rfl, by simpa using hs, h1, h2, h3⟩

theorem effective_at {actions pre post : List Action} {a : Action} (h : actions ++ defaultActions = pre ++ a :: post) :
    (effectiveActions actions)[((pre.length : Int)).toNat]? = some a := by
  unfold effectiveActions
  rw [h]
  simp

/-- Annotating a label fails only when testing it fails. -/
theorem one_error {env : FullEnv} {r : Repertoire} {actions : List Action} {str : Err → String} {x : Read} {e : Err} :
    annotateOne env r actions str x = .error e ↔ x.valid = true ∧ env.testEligible r actions x.label = .error e := by
  unfold annotateOne
  cases hv : x.valid with
  | false => simp
  | true =>
    simp only [if_true, true_and]
    rcases ht : env.testEligible r actions x.label with e' | el
    · simp
    · simp only
      constructor
      · intro h
        exfalso
        unfold outLabel at h
        split at h
        · rename_i hc
          rcases eligible_cases ht with ⟨p, -, -, -, -, hi, -⟩ | ⟨-, -, s, pre, a, post, -, -, h1, h2, -⟩
          · rw [hi] at hc; simp at hc
          · rw [h2, effective_at h1] at h
            cases h
        · cases h
      · intro h; cases h

/-- What is written about a label is what there is to write, except that the first action is not named.
Missing: that action (`first_action_wrong`). -/
theorem tells_partial {env : FullEnv} {r : Repertoire} {actions : List Action} {str : Err → String} {x : Read}
    {b : Block} (h : annotateOne env r actions str x = .ok b) :
    Tells env r actions str x b ∨ Unnamed env r actions x b := by
  unfold annotateOne at h
  cases hv : x.valid with
  | false =>
    rw [hv] at h
    cases h
    exact .inl (.error hv)
  | true =>
    rw [hv] at h
    simp only [if_true] at h
    rcases ht : env.testEligible r actions x.label with e' | el <;> rw [ht] at h
    · cases h
    · simp only at h
      unfold outLabel at h
      rcases eligible_cases ht with ⟨p, h1, h2, h3, h4, h5, h6⟩ | ⟨h1, h2, s, pre, a, post, h3, h4, h5, h6, h7⟩
      · rw [h3, h5] at h
        simp at h
        rw [← h, h4, h6]
        exact .inl (.refused p hv h1 h2)
      · by_cases hs : s = "invalid"
        · subst hs
          have hok : el.ok = false := by
            rw [← Bool.not_eq_true]; exact fun h => (h4.1 h) rfl
          rw [hok, h3, h2] at h
          by_cases hi : pre = []
          · subst hi
            rw [h6] at h
            simp at h
            exact .inr ⟨hv, h1, ⟨el, ht, h3, by simpa using h6⟩, h.symm⟩
          · have hpos : 0 < el.idx := by
              rw [h6]
              exact_mod_cast List.length_pos_of_ne_nil hi
            simp only [Bool.not_false, Bool.true_and, decide_eq_true hpos, if_true] at h
            rw [h6, effective_at h5] at h
            simp only [Except.ok.injEq] at h
            rw [← h]
            rw [← h6]
            exact .inl (.rejected el a pre post hv h1 ht h3 h5 h6)
        · rw [h4.2 hs, h2, h3] at h
          simp at h
          rw [← h]
          exact .inl (.decided el s hv h1 ht h3 hs)

/-- A file is annotated label by label, in order, until testing a label fails. -/
theorem annotate_file_partial (env : FullEnv) (r : Repertoire) (actions : List Action) (str : Err → String)
    (rs : List Read) :
    ∃ done rest, rs = done ++ rest ∧
      List.Forall₂ (fun x b => Tells env r actions str x b ∨ Unnamed env r actions x b) done
        (annotate env r actions str rs).1 ∧
      ((annotate env r actions str rs).2 = .ok () ∧ rest = [] ∨
        ∃ x rest' e, rest = x :: rest' ∧ x.valid = true ∧ env.testEligible r actions x.label = .error e ∧
          (annotate env r actions str rs).2 = .error e) := by
  induction rs with
  | nil => exact ⟨[], [], rfl, .nil, .inl ⟨rfl, rfl⟩⟩
  | cons x xs ih =>
    rcases ho : annotateOne env r actions str x with e | b
    · obtain ⟨h1, h2⟩ := one_error.1 ho
      have he : annotate env r actions str (x :: xs) = ([], .error e) := by simp [annotate, ho]
      rw [he]
      exact ⟨[], x :: xs, rfl, .nil, .inr ⟨x, xs, e, rfl, h1, h2, rfl⟩⟩
    · obtain ⟨done, rest, h1, h2, h3⟩ := ih
      have he : annotate env r actions str (x :: xs) =
        (b :: (annotate env r actions str xs).1, (annotate env r actions str xs).2) := by simp [annotate, ho]
      rw [he]
      exact ⟨x :: done, rest, by rw [h1]; rfl, .cons (tells_partial ho) h2, h3⟩

/-! ## From the lines to the blocks, with the LGR read from a document -/

/-- What a document says about a line: nothing about comments and blank lines; about others, the error, or the disposition
of the label. -/
inductive DocTells (R : DocXml.Reader) (is : List C105.Item) (es : List RulesXml.Node) (as : List Action)
    (str : Err → String) : Option Read → Option (Seq × String) → Prop where
  | skip : DocTells R is es as str none none
  | error (x : Read) : x.valid = false → DocTells R is es as str (some x) (some (x.label, x.errorText str))
  | made (x : Read) (ks : List (C105.Item × Seq)) (s : String) (i : Int) : x.valid = true →
      C106.Made R.props is es x.label ks →
      C107.First R.props is es as x.label (C107.MadeTypes R.props is es x.label ks)
        (C107.MadeSelf R.props is es x.label ks) s i →
      DocTells R is es as str (some x) (some (x.label, s))
  | not (x : Read) : x.valid = true → (¬ ∃ ks, C106.Made R.props is es x.label ks) →
      DocTells R is es as str (some x) (some (x.label, "invalid"))

theorem flat_some {os : List (Option Read)} : ∀ x ∈ os.flatMap Option.toList, some x ∈ os := by
  intro x hx
  obtain ⟨o, h1, h2⟩ := List.mem_flatMap.1 hx
  cases o with
  | none => simp at h2
  | some y => simp at h2; rw [h2]; exact h1

/-- The file of labels is annotated with the dispositions which the document asks for. Items are single code
points; labels are not empty, have at most 63 code points and no line feed. -/
theorem document_file_partial {R : DocXml.Reader} {cs : Rfc7940.Results} {d : DocXml.Doc} {g : DocXml.Loaded}
    (h : C106.Clear R cs d g) {is : List C105.Item} (hm : C105.Means d.data is) (hready : C106.Ready (d.rules.getD []) is)
    {as : List Action} (has : C107.Acts (d.rules.getD []) as) (htidy : C107.ActsTidy (d.rules.getD []))
    (hacts : C107.ActsReady (d.rules.getD []) as) (hso : C106.Inhabited R.props is (d.rules.getD []))
    {env : FullEnv} (hE : C107.FullFaithful R.props g.rules.rs env) (h1 : ∀ i ∈ is, ∀ k, i.Has k → k.length = 1)
    (dec : List Char → Except Err Seq) (str : Err → String) (lines : List (List Char))
    (hl : ∀ line ∈ lines, ∀ x, C108.Says dec false line (some x) → x.valid = true → C106.Plain x.label ∧ x.label ≠ []) :
    ∃ os ts, List.Forall₂ (C108.Says dec false) lines os ∧
      List.Forall₂ (DocTells R is (d.rules.getD []) as str) os ts ∧
      (annotate env g.lgr.rep g.rules.actions str (readLabels dec false false lines).1).2 = .ok () ∧
      (annotate env g.lgr.rep g.rules.actions str (readLabels dec false false lines).1).1.map
        (fun b => (b.label, b.out)) = ts.flatMap Option.toList := by
  obtain ⟨os, g1, g2⟩ := C108.labels_read_partial dec false lines
  rw [g2]
  have hos : ∀ o ∈ os, ∀ x, o = some x → x.valid = true → C106.Plain x.label ∧ x.label ≠ [] := by
    clear g2
    induction g1 with
    | nil => simp
    | cons k1 k2 ih =>
      intro o ho x hx
      rcases List.mem_cons.1 ho with rfl | ho
      · subst hx; exact hl _ (by simp) x k1
      · exact ih (fun line hline => hl line (by simp [hline])) o ho x hx
  refine ⟨os, ?_⟩
  simp only [g1, true_and]
  clear g1 g2 hl
  induction os with
  | nil => exact ⟨[], .nil, rfl, rfl⟩
  | cons o os ih =>
    obtain ⟨ts, i1, i2, i3⟩ := ih (fun o ho => hos o (by simp [ho]))
    cases o with
    | none => exact ⟨none :: ts, .cons .skip i1, i2, i3⟩
    | some x =>
      have key : ∃ b t, annotateOne env g.lgr.rep g.rules.actions str x = .ok b ∧
          DocTells R is (d.rules.getD []) as str (some x) (some t) ∧ t = (b.label, b.out) := by
        cases hv : x.valid with
        | false =>
          refine ⟨⟨x.label, x.errorText str, none, []⟩, _, ?_, .error x hv, rfl⟩
          unfold annotateOne
          rw [hv]; rfl
        | true =>
          obtain ⟨hp, hne⟩ := hos _ (by simp) x rfl hv
          obtain ⟨el, s, k1, k2, k3, k4⟩ :=
            C107.single_disposition_partial h hm hready has htidy hacts hso hE h1 hp hne
          rcases ho : annotateOne env g.lgr.rep g.rules.actions str x with e | b
          · obtain ⟨-, he⟩ := one_error.1 ho
            rw [k1] at he; cases he
          · have hb : b.label = x.label ∧ b.out = s := by
              unfold annotateOne at ho
              rw [hv] at ho
              simp only [if_true] at ho
              rw [k1] at ho
              simp only [k2] at ho
              unfold outLabel at ho
              split at ho
              · split at ho
                · cases ho
                · cases ho; exact ⟨rfl, rfl⟩
              · cases ho; exact ⟨rfl, rfl⟩
            refine ⟨b, _, rfl, ?_, rfl⟩
            rw [hb.1, hb.2]
            rcases k4 with ⟨ks, m1, m2⟩ | ⟨m1, m2, -⟩
            · exact .made x ks s el.idx hv m1 m2
            · rw [m2]; exact .not x hv m1
      obtain ⟨b, t, k1, k2, rfl⟩ := key
      refine ⟨some _ :: ts, .cons k2 i1, ?_, ?_⟩
      · simp only [List.flatMap_cons, Option.toList_some, List.singleton_append, annotate, k1]
        exact i2
      · simp only [List.flatMap_cons, Option.toList_some, List.singleton_append, annotate, k1, List.map_cons]
        rw [i3]

/-! ## Labels of a set of LGRs -/

/-- What is written about a label with a set of LGRs: disposition from the LGR of the script, and, for accepted labels,
whether it is in, or collides with, the labels of the set. -/
theorem set_out {env : FullEnv} {r : Repertoire} {actions actionsM : List Action}
    {verdict : Seq → Except Err Annotate.Verdict} {str : Err → String} {x : Read} {b : Block}
    (h : setAnnotateOne env r actions actionsM verdict str x = .ok b) :
    b.label = x.label ∧
    (x.valid = false ∧ b.out = x.errorText str ∨
     x.valid = true ∧ ∃ el s, env.testEligible r actions x.label = .ok el ∧ el.disp = some s ∧
      ((s = "invalid" ∧ el.ok = false ∧ b.out = "invalid" ∧ b.cps = el.invalid) ∨
       (s ≠ "invalid" ∧ el.ok = true ∧ b.action = none ∧ b.cps = [] ∧ ∃ v, verdict x.label = .ok v ∧
        b.out = match v with
          | .none => s
          | .inSet => s ++ " - Label is in the LGR set labels"
          | .collides => s ++ " - Label collides with the LGR set labels"))) := by
  unfold setAnnotateOne at h
  cases hv : x.valid with
  | false => rw [hv] at h; cases h; exact ⟨rfl, .inl ⟨rfl, rfl⟩⟩
  | true =>
    rw [hv] at h
    simp only [if_true] at h
    rcases ht : env.testEligible r actions x.label with e' | el <;> rw [ht] at h
    · cases h
    · simp only at h
      rcases hvd : (if el.ok then verdict x.label else .ok .none) with e | v <;> rw [hvd] at h
      · cases h
      · simp only at h
        have hb : b.label = x.label ∧ b.out = verdictText (el.disp.getD "None") v ∧ b.cps = el.invalid ∧
            (el.ok = true → b.action = none) := by
          unfold outLabel at h
          split at h
          · rename_i hc
            split at h
            · cases h
            · cases h
              refine ⟨rfl, rfl, rfl, fun hk => ?_⟩
              rw [hk] at hc; simp at hc
          · cases h; exact ⟨rfl, rfl, rfl, fun _ => rfl⟩
        obtain ⟨b1, b2, b3, b4⟩ := hb
        refine ⟨b1, .inr ⟨rfl, el, ?_⟩⟩
        rcases eligible_cases ht with ⟨p, -, -, h3, h4, -, -⟩ | ⟨-, h2, s, pre, a, post, h3, h4, -⟩
        · rw [h3] at hvd
          cases hvd
          refine ⟨"invalid", rfl, h4, .inl ⟨rfl, h3, ?_, b3⟩⟩
          rw [b2, h4]; rfl
        · refine ⟨s, rfl, h3, ?_⟩
          by_cases hs : s = "invalid"
          · have hok : el.ok = false := by
              rw [← Bool.not_eq_true]; exact fun h => (h4.1 h) hs
            rw [hok] at hvd
            cases hvd
            refine .inl ⟨hs, hok, ?_, b3⟩
            rw [b2, h3, hs]; rfl
          · have hok := h4.2 hs
            rw [hok] at hvd
            refine .inr ⟨hs, hok, b4 hok, by rw [b3, h2], v, hvd, ?_⟩
            rw [b2, h3]
            cases v <;> rfl

/-- With the actions of one LGR only, the action named is the one that rejects the label. Missing: the others
(`set_action_wrong`). -/
theorem set_action_partial {env : FullEnv} {r : Repertoire} {actions : List Action}
    {verdict : Seq → Except Err Annotate.Verdict} {str : Err → String} {x : Read} {b : Block} {i : Int} {a : Action}
    (h : setAnnotateOne env r actions actions verdict str x = .ok b) (ha : b.action = some (i, a)) :
    ∃ el pre post, env.testEligible r actions x.label = .ok el ∧ el.disp = some "invalid" ∧ el.idx = i ∧
      actions ++ defaultActions = pre ++ a :: post ∧ i = (pre.length : Int) ∧ a.disp = "invalid" := by
  unfold setAnnotateOne at h
  cases hv : x.valid with
  | false => rw [hv] at h; cases h; cases ha
  | true =>
    rw [hv] at h
    simp only [if_true] at h
    rcases ht : env.testEligible r actions x.label with e' | el <;> rw [ht] at h
    · cases h
    · simp only at h
      rcases hvd : (if el.ok then verdict x.label else .ok .none) with e | v <;> rw [hvd] at h
      · cases h
      · simp only at h
        unfold outLabel at h
        split at h
        · rename_i hc
          rw [Bool.and_eq_true] at hc
          rcases eligible_cases ht with ⟨p, -, -, -, -, h5, -⟩ | ⟨-, h2, s, pre, a', post, h3, h4, h5, h6, h7⟩
          · rw [h5] at hc; simp at hc
          · rw [h6, effective_at h5] at h
            cases h
            cases ha
            have hs : s = "invalid" := by
              by_contra hs
              rw [h4.2 hs] at hc
              simp at hc
            exact ⟨el, pre, post, rfl, by rw [h3, hs], h6, h5, rfl, by rw [← h7, hs]⟩
        · cases h; cases ha

/-! ## Examples and violations -/

/-- Repertoire with the code points 1 and 2, rules that match everything. -/
def env1 : FullEnv := ⟨⟨fun _ _ _ _ => .ok true⟩, fun _ _ => .ok true, fun _ => "Latn"⟩
def rep1 : Repertoire := ⟨[], [(1, [{ cp := [1] }]), (2, [{ cp := [2] }])]⟩
def acts1 : List Action := [{ disp := "blocked", anyVariant := ["out"] }, { disp := "invalid", matchR := some "r" }]
def read1 (l : Seq) : Read := ⟨[], l, true, some none⟩

example : annotate env1 rep1 acts1 (fun _ => "") [read1 [1], read1 [3], ⟨[], [9], false, some (some .valueError)⟩] =
    ([⟨[1], "invalid", some (1, { disp := "invalid", matchR := some "r" }), []⟩, ⟨[3], "invalid", none, [(3, none)]⟩,
      ⟨[9], "", none, []⟩], .ok ()) := by decide +kernel

example : annotate env1 rep1 [] (fun _ => "") [read1 [1, 2]] = ([⟨[1, 2], "valid", none, []⟩], .ok ()) := by
  decide +kernel

/-- The hypotheses of `document_file_partial` are met by a document and a file of labels. -/
example : ∃ (g : DocXml.Loaded) (env : FullEnv) (is : List C105.Item) (as : List Action),
    C106.Clear C106.reader1 [] C106.doc1 g ∧ C105.Means C106.doc1.data is ∧
    C107.FullFaithful C106.reader1.props g.rules.rs env ∧ C107.Acts (C106.doc1.rules.getD []) as ∧
    ∀ line ∈ ["b # blocked".toList, "# comment".toList, "U+0061 U+0062".toList],
      ∀ x, C108.Says (fun _ => .error .valueError) false line (some x) → x.valid = true →
        C106.Plain x.label ∧ x.label ≠ [] := by
  obtain ⟨g, hg⟩ := C106.doc1_clear
  obtain ⟨env, -, he⟩ := C107.full_faithful_exists (C106.common_of hg C106.doc1_means).1 (fun _ => "Latin")
  refine ⟨g, env, C106.items1, C107.actions1, hg, C106.doc1_means, he, C107.acts1, ?_⟩
  intro line hline x hx _
  rw [← C108.says_iff] at hx
  simp only [List.mem_cons, List.not_mem_nil, or_false] at hline
  have h1 : readLine (fun _ => .error .valueError) false false "b # blocked".toList =
      .ok (some ⟨['b'], [0x62], true, some none⟩) := by decide +kernel
  have h2 : readLine (fun _ => .error .valueError) false false "# comment".toList = .ok none := by decide +kernel
  have h3 : readLine (fun _ => .error .valueError) false false "U+0061 U+0062".toList =
      .ok (some ⟨"U+0061 U+0062".toList, [0x61, 0x62], true, some none⟩) := by decide +kernel
  rcases hline with rfl | rfl | rfl
  · rw [h1] at hx; cases hx; unfold C106.Plain; decide
  · rw [h2] at hx; cases hx
  · rw [h3] at hx; cases hx; unfold C106.Plain; decide

/-- Full statement: what is written about a label is what there is to write. -/
def Complete (env : FullEnv) (r : Repertoire) (actions : List Action) (str : Err → String) : Prop :=
  ∀ x b, annotateOne env r actions str x = .ok b → Tells env r actions str x b

/-- The action with index 0 is not named when it rejects a label. -/
theorem first_action_wrong : ∃ env r actions, ∀ str, ¬ Complete env r actions str := by
  refine ⟨env1, rep1, [{ disp := "invalid", matchR := some "r" }], fun str h => ?_⟩
  have hb : annotateOne env1 rep1 [{ disp := "invalid", matchR := some "r" }] str (read1 [1]) =
      .ok ⟨[1], "invalid", none, []⟩ := by rfl
  have ht : env1.testEligible rep1 [{ disp := "invalid", matchR := some "r" }] [1] =
      .ok ⟨false, [], [], some "invalid", 0, [{ cp := [1] }]⟩ := by rfl
  have hpre : ∃ p, env1.prelim rep1 [1] = .ok p ∧ p.ok = true := ⟨_, rfl, rfl⟩
  generalize hbb : (⟨[1], "invalid", none, []⟩ : Block) = b at hb
  cases h _ _ hb with
  | error hv => cases hv
  | refused p _ h1 h2 =>
    obtain ⟨q, h3, h4⟩ := hpre
    have : env1.prelim rep1 [1] = .ok p := h1
    rw [h3] at this
    cases this
    rw [h4] at h2; cases h2
  | decided el s _ _ _ _ hs =>
    simp only [Block.mk.injEq] at hbb
    exact hs hbb.2.1.symm
  | rejected => simp at hbb

/-- Full statement: the action named is one of the LGR which was used to test the label, and rejects labels. -/
def SetNamed (env : FullEnv) (r : Repertoire) (actions actionsM : List Action)
    (verdict : Seq → Except Err Annotate.Verdict) (str : Err → String) : Prop :=
  ∀ x b i a, setAnnotateOne env r actions actionsM verdict str x = .ok b → b.action = some (i, a) →
    a ∈ actions ++ defaultActions ∧ a.disp = "invalid"

/-- The index is that of an action of the LGR of the script, but the action is looked up in the merged LGR, where the
actions of another script come first. -/
theorem set_action_wrong : ∃ env r actions other, ∀ verdict str,
    ¬ SetNamed env r actions (other ++ actions) verdict str := by
  refine ⟨env1, rep1, acts1, [{ disp := "a", anyVariant := ["x"] }, { disp := "b", anyVariant := ["y"] }],
    fun verdict str h => ?_⟩
  have := h (read1 [1]) ⟨[1], "invalid", some (1, { disp := "b", anyVariant := ["y"] }), []⟩ 1
    { disp := "b", anyVariant := ["y"] } (by rfl) rfl
  exact absurd this.2 (by decide)

end Lgr.Props.C110

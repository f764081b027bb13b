import Verif.Props.Annotate
import Verif.Props.LongestMatch

/-!
# C110: annotated files under a document with any sequences
-/

namespace Lgr.Props.C110
open Lgr Annotate LabelInput

/-- What a document says about a line, whatever its sequences: nothing about comments and blank lines; about others, the error, the
disposition of a label which can be cut into longest sequences (C152), or that it is invalid. -/
inductive FileTells (R : DocXml.Reader) (is : List C105.Item) (es : List RulesXml.Node) (as : List Action)
    (str : Err → String) : Option Read → Option (Seq × String) → Prop where
  | skip : FileTells R is es as str none none
  | error (x : Read) : x.valid = false → FileTells R is es as str (some x) (some (x.label, x.errorText str))
  | cut (x : Read) (ks : List Seq) (s : String) (i : Int) : x.valid = true →
      C152.DocCut R.props is es x.label 0 ks x.label.length →
      C107.First R.props is es as x.label (C107.SelfTypes R.props is es x.label) (C107.AllSelf R.props is es x.label) s i →
      FileTells R is es as str (some x) (some (x.label, s))
  | not (x : Read) : x.valid = true → (¬ ∃ ks, C152.DocCut R.props is es x.label 0 ks x.label.length) →
      FileTells R is es as str (some x) (some (x.label, "invalid"))

/-- **C110** (partial) The file of labels is annotated with the dispositions which the document asks for, whatever the sequences of its
items. Labels are not empty, have at most 63 code points and no line feed; mappings of what merely stands in the label count, as in
C107. -/
theorem document_any_partial {R : DocXml.Reader} {cs : Rfc7940.Results} {d : DocXml.Doc} {g : DocXml.Loaded}
    (h : C106.Clear R cs d g) {is : List C105.Item} (hm : C105.Means d.data is) (hready : C106.Ready (d.rules.getD []) is)
    {as : List Action} (has : C107.Acts (d.rules.getD []) as) (htidy : C107.ActsTidy (d.rules.getD []))
    (hacts : C107.ActsReady (d.rules.getD []) as) (hso : C106.Inhabited R.props is (d.rules.getD []))
    {env : FullEnv} (hE : C107.FullFaithful R.props g.rules.rs env)
    (dec : List Char → Except Err Seq) (str : Err → String) (lines : List (List Char))
    (hl : ∀ line ∈ lines, ∀ x, C108.Says dec false line (some x) → x.valid = true → C106.Plain x.label ∧ x.label ≠ []) :
    ∃ os ts, List.Forall₂ (C108.Says dec false) lines os ∧
      List.Forall₂ (FileTells R is (d.rules.getD []) as str) os ts ∧
      (annotate env g.lgr.rep g.rules.actions str (readLabels dec false false lines).1).2 = .ok () ∧
      (annotate env g.lgr.rep g.rules.actions str (readLabels dec false false lines).1).1.map
        (fun b => (b.label, b.out)) = ts.flatMap Option.toList := by
  obtain ⟨os, g1, g2⟩ := C108.labels_read_partial dec false lines
  rw [g2]
  have hos : ∀ o ∈ os, ∀ x, o = some x → x.valid = true → C106.Plain x.label ∧ x.label ≠ [] := by
    clear g2
    induction g1 with
    | nil => simp
    | cons k1 k2 ih =>
      intro o ho x hx
      rcases List.mem_cons.1 ho with rfl | ho
      · subst hx; exact hl _ (by simp) x k1
      · exact ih (fun line hline => hl line (by simp [hline])) o ho x hx
  refine ⟨os, ?_⟩
  simp only [g1, true_and]
  clear g1 g2 hl
  induction os with
  | nil => exact ⟨[], .nil, rfl, rfl⟩
  | cons o os ih =>
    obtain ⟨ts, i1, i2, i3⟩ := ih (fun o ho => hos o (by simp [ho]))
    cases o with
    | none => exact ⟨none :: ts, .cons .skip i1, i2, i3⟩
    | some x =>
      have key : ∃ b t, annotateOne env g.lgr.rep g.rules.actions str x = .ok b ∧
          FileTells R is (d.rules.getD []) as str (some x) (some t) ∧ t = (b.label, b.out) := by
        cases hv : x.valid with
        | false =>
          refine ⟨⟨x.label, x.errorText str, none, []⟩, _, ?_, .error x hv, rfl⟩
          unfold annotateOne
          rw [hv]; rfl
        | true =>
          obtain ⟨hp, hne⟩ := hos _ (by simp) x rfl hv
          obtain ⟨p, hpre, hcut⟩ := C152.document_accepts_iff h hm hready hso hE.1 hp
          obtain ⟨p', el, hpre', k1, hrej, hacc⟩ := C107.document_disposition_partial h hm hready has htidy hacts hso hE hp hne
          have hpp : p = p' := by
            have := hpre.symm.trans hpre'
            cases this
            rfl
          subst hpp
          have key : ∃ s, el.disp = some s ∧ FileTells R is (d.rules.getD []) as str (some x) (some (x.label, s)) := by
            cases hok : p.ok with
            | false =>
              refine ⟨"invalid", (hrej hok).2.1, .not x hv ?_⟩
              rintro ⟨ks, hks⟩
              have := ((hcut ks).2 hks).1
              rw [hok] at this
              cases this
            | true =>
              obtain ⟨s, m1, -, m2⟩ := hacc hok
              exact ⟨s, m1, .cut x _ s el.idx hv ((hcut _).1 ⟨hok, rfl⟩) m2⟩
          obtain ⟨s, k2, k4⟩ := key
          rcases ho : annotateOne env g.lgr.rep g.rules.actions str x with e | b
          · obtain ⟨-, he⟩ := one_error.1 ho
            rw [k1] at he; cases he
          · have hb : b.label = x.label ∧ b.out = s := by
              unfold annotateOne at ho
              rw [hv] at ho
              simp only [if_true] at ho
              rw [k1] at ho
              simp only [k2] at ho
              unfold outLabel at ho
              split at ho
              · split at ho
                · cases ho
                · cases ho; exact ⟨rfl, rfl⟩
              · cases ho; exact ⟨rfl, rfl⟩
            refine ⟨b, _, rfl, ?_, rfl⟩
            rw [hb.1, hb.2]
            exact k4
      obtain ⟨b, t, k1, k2, rfl⟩ := key
      refine ⟨some _ :: ts, .cons k2 i1, ?_, ?_⟩
      · simp only [List.flatMap_cons, Option.toList_some, List.singleton_append, annotate, k1]
        exact i2
      · simp only [List.flatMap_cons, Option.toList_some, List.singleton_append, annotate, k1, List.map_cons]
        rw [i3]

/-- The hypotheses are met by a document with sequences which begin others, and a file of labels. -/
example : ∃ (g : DocXml.Loaded) (env : FullEnv),
    C106.Clear C106.reader1 [] C106.doc2 g ∧ C105.Means C106.doc2.data C106.items2 ∧
    C106.Ready (C106.doc2.rules.getD []) C106.items2 ∧ C107.Acts (C106.doc2.rules.getD []) [] ∧
    C107.ActsTidy (C106.doc2.rules.getD []) ∧ C107.ActsReady (C106.doc2.rules.getD []) [] ∧
    C106.Inhabited C106.reader1.props C106.items2 (C106.doc2.rules.getD []) ∧
    C107.FullFaithful C106.reader1.props g.rules.rs env ∧
    ∀ line ∈ ["abbc # cut".toList, "abc".toList],
      ∀ x, C108.Says (fun _ => .error .valueError) false line (some x) → x.valid = true →
        C106.Plain x.label ∧ x.label ≠ [] := by
  obtain ⟨g, hg, hm, -⟩ := C106.beginning_wrong
  obtain ⟨env, -, he⟩ := C107.full_faithful_exists (C106.common_of hg hm).1 (fun _ => "Latin")
  refine ⟨g, env, hg, hm, ?_, .nil, ?_, ?_, ?_, he, ?_⟩
  · intro i hi
    simp only [C106.items2, List.mem_cons, List.not_mem_nil, or_false] at hi
    rcases hi with rfl | rfl | rfl <;> simp [C105.Item.attrs, C105.Item.vars]
  · intro e he
    cases he
  · intro a ha
    cases ha
  · intro w _ e he
    cases he
  · intro line hline x hx _
    rw [← C108.says_iff] at hx
    simp only [List.mem_cons, List.not_mem_nil, or_false] at hline
    have h1 : readLine (fun _ => .error .valueError) false false "abbc # cut".toList =
        .ok (some ⟨"abbc".toList, [0x61, 0x62, 0x62, 0x63], true, some none⟩) := by decide +kernel
    have h2 : readLine (fun _ => .error .valueError) false false "abc".toList =
        .ok (some ⟨"abc".toList, [0x61, 0x62, 0x63], true, some none⟩) := by decide +kernel
    rcases hline with rfl | rfl
    · rw [h1] at hx; cases hx; unfold C106.Plain; decide
    · rw [h2] at hx; cases hx; unfold C106.Plain; decide

end Lgr.Props.C110

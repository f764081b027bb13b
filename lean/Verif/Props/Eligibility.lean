import Verif.LabelLemmas
import Verif.Props.RepertoireMap

/-!
# C13, C14, C15: preliminary eligibility
-/

namespace Lgr.Props
open Repertoire

/-! ## Specification: context, matching, segmentation -/

/-- A character or variant with the given rules is in valid context: its `when` rule matches;
or it has no `when` rule and its `not-when` rule, if any, does not match. -/
def CtxHolds (env : Env) (whenR notWhenR : Option String) (anchor label : Seq) (o : Nat) : Prop :=
  (∀ w, whenR = some w → env.ruleMatches w label anchor o = .ok true) ∧
  (whenR = none → ∀ n, notWhenR = some n → env.ruleMatches n label anchor o = .ok false)

/-- The context is evaluated without error and is not valid. -/
def CtxFails (env : Env) (whenR notWhenR : Option String) (anchor label : Seq) (o : Nat) : Prop :=
  (∃ w, whenR = some w ∧ env.ruleMatches w label anchor o = .ok false) ∨
  (whenR = none ∧ ∃ n, notWhenR = some n ∧ env.ruleMatches n label anchor o = .ok true)

/-- `c` is in the repertoire and occurs in `label` at offset `o`. -/
def MatchesAt (r : Repertoire) (label : Seq) (o : Nat) (c : CharObj) : Prop :=
  r.getChar c.cp = .ok c ∧ c.cp <+: label.drop o

/-- The context of character `c` is valid at offset `o` of `label`. -/
def CharCtx (env : Env) (label : Seq) (o : Nat) (c : CharObj) : Prop :=
  CtxHolds env c.attrs.whenR c.attrs.notWhenR c.cp label o

/-- `cs` is a way of writing `label` as a concatenation of repertoire characters, each in valid
context at its offset. -/
structure Segmentation (env : Env) (r : Repertoire) (label : Seq) (cs : List CharObj) : Prop where
  concat : cs.flatMap CharObj.cp = label
  stored : ∀ c ∈ cs, r.getChar c.cp = .ok c
  context : ∀ pre c post, cs = pre ++ c :: post →
    CharCtx env label (pre.flatMap CharObj.cp).length c

/-- No rule mentioned by the repertoire raises. -/
def RulesDefined (env : Env) (r : Repertoire) : Prop :=
  (∀ c, r.getChar c.cp = .ok c → ∀ w, c.attrs.whenR = some w ∨ c.attrs.notWhenR = some w →
    ∀ l a i, ∃ b, env.ruleMatches w l a i = .ok b) ∧
  (∀ c, r.getChar c.cp = .ok c → ∀ v ∈ c.getVariants, ∀ w, v.whenR = some w ∨ v.notWhenR = some w →
    ∀ l a i, ∃ b, env.ruleMatches w l a i = .ok b)

theorem testContext_true {env : Env} {w n a l i} :
    env.testContext w n a l i = .ok true ↔ CtxHolds env w n a l i := by
  cases w with
  | some w => simp [Env.testContext, CtxHolds]
  | none =>
    cases n with
    | none => simp [Env.testContext, CtxHolds]
    | some n =>
      simp only [Env.testContext, CtxHolds]
      cases hm : env.ruleMatches n l a i with
      | error e => simp [hm]
      | ok b => cases b <;> simp [hm]

theorem testContext_false {env : Env} {w n a l i} :
    env.testContext w n a l i = .ok false ↔ CtxFails env w n a l i := by
  cases w with
  | some w => simp [Env.testContext, CtxFails]
  | none =>
    cases n with
    | none => simp [Env.testContext, CtxFails]
    | some n =>
      simp only [Env.testContext, CtxFails]
      cases hm : env.ruleMatches n l a i with
      | error e => simp [hm]
      | ok b => cases b <;> simp [hm]

theorem ctx_not_both {env : Env} {w n a l i} (h1 : CtxHolds env w n a l i)
    (h2 : CtxFails env w n a l i) : False := by
  rw [← testContext_true] at h1; rw [← testContext_false, h1] at h2; cases h2

theorem testChar_defined {env : Env} {r : Repertoire} (hd : RulesDefined env r) {c : CharObj}
    (hg : r.getChar c.cp = .ok c) (l : Seq) (i : Nat) : ∃ b, env.testChar c l i = .ok b := by
  unfold Env.testChar Env.testContext
  cases hw : c.attrs.whenR with
  | some w => exact hd.1 c hg w (Or.inl hw) l _ i
  | none =>
    cases hn : c.attrs.notWhenR with
    | none => exact ⟨_, rfl⟩
    | some n =>
      obtain ⟨b, hb⟩ := hd.1 c hg n (Or.inr hn) l c.cp i
      exact ⟨!b, by simp [hb]⟩

theorem testVar_defined {env : Env} {r : Repertoire} (hd : RulesDefined env r) {c : CharObj}
    (hg : r.getChar c.cp = .ok c) {v : Variant} (hv : v ∈ c.getVariants) (l : Seq) (i : Nat) :
    ∃ b, env.testVar v l i = .ok b := by
  unfold Env.testVar Env.testContext
  cases hw : v.whenR with
  | some w => exact hd.2 c hg v hv w (Or.inl hw) l _ i
  | none =>
    cases hn : v.notWhenR with
    | none => exact ⟨_, rfl⟩
    | some n =>
      obtain ⟨b, hb⟩ := hd.2 c hg v hv n (Or.inr hn) l v.cp i
      exact ⟨!b, by simp [hb]⟩

/-! ## Description of the outcome of the scan -/

/-- A part of the label as seen by the test: a character, or a rejected code point with the names
of the rules reported for it. -/
inductive Piece where
  | char (c : CharObj)
  | bad (cp : Nat) (rules : Option (List String))

def Piece.cps : Piece → Seq
  | .char c => c.cp
  | .bad x _ => [x]

def Piece.char? : Piece → Option CharObj
  | .char c => some c
  | .bad _ _ => none

def Piece.bad? : Piece → Option (Nat × Option (List String))
  | .char _ => none
  | .bad x l => some (x, l)

/-- The rule deciding on the context of a character. -/
def ruleOf (c : CharObj) : Option String :=
  match c.attrs.whenR with
  | some w => some w
  | none => c.attrs.notWhenR

/-- What the test may say about offset `o`: either the longest matching character in valid
context, or, when every matching character has its context violated, the list of the violated
rules (none when no repertoire character matches there). -/
def Piece.Right (env : Env) (r : Repertoire) (label : Seq) (o : Nat) : Piece → Prop
  | .char c => MatchesAt r label o c ∧ CharCtx env label o c ∧
      ∀ d, MatchesAt r label o d → CharCtx env label o d → d.len ≤ c.len
  | .bad _ rules =>
      (∀ d, MatchesAt r label o d → CtxFails env d.attrs.whenR d.attrs.notWhenR d.cp label o) ∧
      (rules = none ↔ ¬ ∃ d, MatchesAt r label o d) ∧
      (∀ l, rules = some l → ∀ w, w ∈ l ↔ ∃ d, MatchesAt r label o d ∧ ruleOf d = some w)

/-- `p` is the result of cutting `rest`, found at offset `i`, into right pieces. -/
structure Describes (env : Env) (r : Repertoire) (label : Seq) (i : Nat) (rest : Seq)
    (p : Env.Prelim) (items : List Piece) : Prop where
  concat : items.flatMap Piece.cps = rest
  chars : p.chars = items.filterMap Piece.char?
  parts : p.parts = p.chars.flatMap CharObj.cp
  invalid : p.invalid = items.filterMap Piece.bad?
  ok : p.ok = true ↔ p.invalid = []
  right : ∀ pre it post, items = pre ++ it :: post →
    it.Right env r label (i + (pre.flatMap Piece.cps).length)

theorem right_cons {env : Env} {r label i} {it : Piece} {items : List Piece}
    (h1 : it.Right env r label i)
    (h2 : ∀ pre it' post, items = pre ++ it' :: post →
      it'.Right env r label (i + it.cps.length + (pre.flatMap Piece.cps).length)) :
    ∀ pre it' post, it :: items = pre ++ it' :: post →
      it'.Right env r label (i + (pre.flatMap Piece.cps).length) := by
  intro pre it' post he
  cases pre with
  | nil => simp at he; obtain ⟨rfl, _⟩ := he; simpa using h1
  | cons q pre =>
    simp at he
    obtain ⟨rfl, he⟩ := he
    have := h2 pre it' post he
    simpa [Nat.add_assoc] using this

theorem prelimLoop_describes {env : Env} {r : Repertoire} (h : WF r) (label : Seq) (fuel : Nat) :
    ∀ (i : Nat) (rest : Seq) (p : Env.Prelim), rest = label.drop i → rest.length ≤ fuel →
      env.prelimLoop r label fuel i rest = .ok p → ∃ items, Describes env r label i rest p items := by
  induction fuel with
  | zero =>
    intro i rest p hr hl he
    cases rest with
    | cons x xs => simp at hl
    | nil =>
      simp [Env.prelimLoop] at he
      subst he
      exact ⟨[], by constructor <;> simp⟩
  | succ fuel ih =>
    intro i rest p hr hl he
    cases rest with
    | nil =>
      simp [Env.prelimLoop] at he
      subst he
      exact ⟨[], by constructor <;> simp⟩
    | cons x xs =>
      have hxs : xs = label.drop (i + 1) := by
        rw [← List.drop_drop, ← hr]; rfl
      have hxl : xs.length ≤ fuel := by simpa using hl
      -- matching characters start with `x`
      have hstart : ∀ d, MatchesAt r label i d → ∃ t, d.cp = x :: t := by
        rintro d ⟨hg, hp⟩
        rw [← hr] at hp
        cases hd : d.cp with
        | nil => exact absurd hd (getChar_ne_nil hg)
        | cons y t =>
          rw [hd] at hp
          obtain ⟨u, hu⟩ := hp
          simp at hu
          exact ⟨t, by rw [hu.1]⟩
      unfold Env.prelimLoop at he
      cases hc : r.charsFromPrefix x with
      | error e =>
        simp only [hc] at he
        cases hl2 : env.prelimLoop r label fuel (i + 1) xs with
        | error e => simp [hl2] at he
        | ok q =>
          simp [hl2] at he
          subst he
          obtain ⟨items, hD⟩ := ih (i + 1) xs q hxs hxl hl2
          refine ⟨.bad x none :: items, ?_, ?_, ?_, ?_, ?_, ?_⟩
          · simp [Piece.cps, hD.concat]
          · simp [List.filterMap_cons, Piece.char?, hD.chars]
          · exact hD.parts
          · simp [List.filterMap_cons, Piece.bad?, hD.invalid]
          · simp
          · apply right_cons
            · have hno : ¬ ∃ d, MatchesAt r label i d := by
                rintro ⟨d, hd⟩
                exact charsFromPrefix_error h hc hd.1 (hstart d hd)
              exact ⟨fun d hd => absurd ⟨d, hd⟩ hno, by simp [hno], by simp⟩
            · simpa [Piece.cps] using hD.right
      | ok cs =>
        simp only [hc] at he
        obtain ⟨hmem, hsort, -⟩ := charsFromPrefix_ok h hc
        obtain ⟨hp1, hp2, -⟩ := Env.pickChar_spec (env := env) (label := label) (i := i) (xs := xs)
          cs (fun c hc => ((hmem c).1 hc).2)
        have hmatch : ∀ d, MatchesAt r label i d ↔ d ∈ cs ∧ d.cp <+: x :: xs := by
          intro d
          constructor
          · intro hd; exact ⟨(hmem d).2 ⟨hd.1, hstart d hd⟩, by rw [hr]; exact hd.2⟩
          · rintro ⟨h1, h2⟩; exact ⟨((hmem d).1 h1).1, by rw [← hr]; exact h2⟩
        cases hk : env.pickChar label i (x :: xs) cs with
        | error e => simp [hk] at he
        | ok q =>
          obtain ⟨o, pend⟩ := q
          cases o with
          | some c =>
            simp only [hk] at he
            obtain ⟨pre, post, hcs, hpf, ht, hpre⟩ := hp1 c pend hk
            cases hl2 : env.prelimLoop r label fuel (i + c.len) ((x :: xs).drop c.len) with
            | error e => simp [hl2] at he
            | ok q =>
              simp [hl2] at he
              subst he
              have hcm : MatchesAt r label i c := (hmatch c).2 ⟨by simp [hcs], hpf⟩
              have hcl : 0 < c.len := List.length_pos_iff.2 (getChar_ne_nil hcm.1)
              obtain ⟨items, hD⟩ := ih (i + c.len) ((x :: xs).drop c.len) q
                (by rw [hr, List.drop_drop]) (by
                  rw [List.length_drop]; simp only [List.length_cons] at hl ⊢; omega) hl2
              refine ⟨.char c :: items, ?_, ?_, ?_, ?_, ?_, ?_⟩
              · simp only [List.flatMap_cons, Piece.cps, hD.concat]
                conv_rhs => rw [← List.take_append_drop c.len (x :: xs)]
                have := List.prefix_iff_eq_take.1 hpf
                rw [show (x :: xs).take c.len = c.cp from this.symm]
              · simp [List.filterMap_cons, Piece.char?, hD.chars]
              · simp [hD.parts]
              · simp [List.filterMap_cons, Piece.bad?, hD.invalid]
              · exact hD.ok
              · apply right_cons
                · refine ⟨hcm, testContext_true.1 ht, ?_⟩
                  intro d hd hdc
                  obtain ⟨hdm, hdp⟩ := (hmatch d).1 hd
                  rw [hcs] at hdm
                  rcases List.mem_append.1 hdm with hdm | hdm
                  · exact absurd (testContext_false.1 (hpre d hdm hdp)) (ctx_not_both hdc)
                  · rcases List.mem_cons.1 hdm with rfl | hdm
                    · exact le_refl _
                    · rw [hcs, List.pairwise_append] at hsort
                      exact (List.pairwise_cons.1 hsort.2.1).1 d hdm
                · exact hD.right
          | none =>
            simp only [hk] at he
            obtain ⟨hfail, hpend⟩ := hp2 pend hk
            cases hl2 : env.prelimLoop r label fuel (i + 1) xs with
            | error e => simp [hl2] at he
            | ok q =>
              simp [hl2] at he
              subst he
              obtain ⟨items, hD⟩ := ih (i + 1) xs q hxs hxl hl2
              have hw : ∀ w, w ∈ pend ↔ ∃ d, MatchesAt r label i d ∧ ruleOf d = some w := by
                intro w
                rw [hpend]
                simp only [List.mem_filterMap, List.mem_filter, CharObj.isPrefixOf_iff, hmatch]
                apply exists_congr
                intro d
                apply and_congr_right
                intro _
                unfold ruleOf
                cases d.attrs.whenR <;> simp
              have hf : ∀ d, MatchesAt r label i d →
                  CtxFails env d.attrs.whenR d.attrs.notWhenR d.cp label i := by
                intro d hd
                obtain ⟨h1, h2⟩ := (hmatch d).1 hd
                exact testContext_false.1 (hfail d h1 h2)
              refine ⟨.bad x (if pend = [] then none else some pend) :: items, ?_, ?_, ?_, ?_, ?_, ?_⟩
              · simp [Piece.cps, hD.concat]
              · simp [List.filterMap_cons, Piece.char?, hD.chars]
              · exact hD.parts
              · simp [List.filterMap_cons, Piece.bad?, hD.invalid]
              · simp
              · apply right_cons
                · refine ⟨hf, ?_, ?_⟩
                  · by_cases hpe : pend = []
                    · simp only [hpe, if_true, true_iff]
                      rintro ⟨d, hd⟩
                      have hr : ∃ w, ruleOf d = some w := by
                        rcases hf d hd with ⟨w, hw, _⟩ | ⟨hw, n, hn, _⟩
                        · exact ⟨w, by simp [ruleOf, hw]⟩
                        · exact ⟨n, by simp [ruleOf, hw, hn]⟩
                      obtain ⟨w, hrw⟩ := hr
                      have := (hw w).2 ⟨d, hd, hrw⟩
                      simp [hpe] at this
                    · simp only [hpe, if_false, reduceCtorEq, false_iff, not_not]
                      obtain ⟨w, hwm⟩ := List.exists_mem_of_ne_nil pend hpe
                      obtain ⟨d, hd, _⟩ := (hw w).1 hwm
                      exact ⟨d, hd⟩
                  · intro l hl
                    by_cases hpe : pend = []
                    · simp [hpe] at hl
                    · simp [hpe] at hl; subst hl; exact hw
                · simpa [Piece.cps] using hD.right

theorem prelim_describes {env : Env} {r : Repertoire} (h : WF r) {label : Seq} {p : Env.Prelim}
    (he : env.prelim r label = .ok p) : ∃ items, Describes env r label 0 label p items :=
  prelimLoop_describes h label label.length 0 label p (by simp) (le_refl _) he

theorem prelimLoop_defined {env : Env} {r : Repertoire} (h : WF r) (hd : RulesDefined env r)
    (label : Seq) (fuel : Nat) : ∀ (i : Nat) (rest : Seq),
    ∃ p, env.prelimLoop r label fuel i rest = .ok p := by
  induction fuel with
  | zero => intro i rest; cases rest <;> exact ⟨_, rfl⟩
  | succ fuel ih =>
    intro i rest
    cases rest with
    | nil => exact ⟨_, rfl⟩
    | cons x xs =>
      unfold Env.prelimLoop
      obtain ⟨q, hq⟩ := ih (i + 1) xs
      cases hc : r.charsFromPrefix x with
      | error e => simp [hq]
      | ok cs =>
        obtain ⟨hmem, -, -⟩ := charsFromPrefix_ok h hc
        obtain ⟨-, -, hp3⟩ := Env.pickChar_spec (env := env) (label := label) (i := i) (xs := xs)
          cs (fun c hc => ((hmem c).1 hc).2)
        cases hk : env.pickChar label i (x :: xs) cs with
        | error e =>
          obtain ⟨d, hdm, _, hde⟩ := hp3 e hk
          obtain ⟨b, hb⟩ := testChar_defined hd ((hmem d).1 hdm).1 label i
          rw [hb] at hde; cases hde
        | ok o =>
          obtain ⟨o, pend⟩ := o
          cases o with
          | none => simp [hk, hq]
          | some c =>
            obtain ⟨q2, hq2⟩ := ih (i + c.len) ((x :: xs).drop c.len)
            simp only [hk, hq2]; exact ⟨_, rfl⟩

/-- When no rule raises, the test gives an answer. -/
theorem prelim_defined {env : Env} {r : Repertoire} (h : WF r) (hd : RulesDefined env r)
    (label : Seq) : ∃ p, env.prelim r label = .ok p := prelimLoop_defined h hd _ _ _ _

theorem bad_nil {items : List Piece} (h : items.filterMap Piece.bad? = []) :
    items = (items.filterMap Piece.char?).map Piece.char := by
  induction items with
  | nil => rfl
  | cons it items ih =>
    cases it with
    | bad x l => simp [List.filterMap_cons, Piece.bad?] at h
    | char c =>
      rw [List.filterMap_cons] at h ⊢
      simp only [Piece.bad?, Piece.char?, List.map_cons] at h ⊢
      rw [← ih h]

theorem flatMap_char (cs : List CharObj) :
    (cs.map Piece.char).flatMap Piece.cps = cs.flatMap CharObj.cp := by
  induction cs with
  | nil => rfl
  | cons c cs ih => simp [Piece.cps, ih]

end Lgr.Props

namespace Lgr.Props.C13
open Repertoire

/-- If the preliminary test accepts a label, the returned characters are a segmentation of the
label, the returned parts are the label, and each character is a longest one among the repertoire
characters matching at its offset in valid context. For every rule semantics, repertoire and
label. -/
theorem accepted_is_segmentation {env : Env} {r : Repertoire} (h : WF r) {label : Seq}
    {p : Env.Prelim} (he : env.prelim r label = .ok p) (hok : p.ok = true) :
    Segmentation env r label p.chars ∧ p.parts = label ∧ p.invalid = [] ∧
    ∀ pre c post, p.chars = pre ++ c :: post →
      ∀ d, MatchesAt r label (pre.flatMap CharObj.cp).length d →
        CharCtx env label (pre.flatMap CharObj.cp).length d → d.len ≤ c.len := by
  obtain ⟨items, hD⟩ := prelim_describes h he
  have hi := hD.ok.1 hok
  have hall : items = p.chars.map Piece.char := by
    rw [hD.chars]; exact bad_nil (by rw [← hD.invalid, hi])
  have hright : ∀ pre c post, p.chars = pre ++ c :: post →
      (Piece.char c).Right env r label (pre.flatMap CharObj.cp).length := by
    intro pre c post hs
    have := hD.right (pre.map .char) (.char c) (post.map .char) (by rw [hall, hs]; simp)
    simpa [flatMap_char] using this
  have hcat : p.chars.flatMap CharObj.cp = label := by
    rw [← flatMap_char, ← hall]; exact hD.concat
  refine ⟨⟨hcat, ?_, fun pre c post hs => (hright pre c post hs).2.1⟩, ?_, hi,
    fun pre c post hs => (hright pre c post hs).2.2⟩
  · intro c hc
    obtain ⟨pre, post, hs⟩ := List.append_of_mem hc
    exact (hright pre c post hs).1.1
  · rw [hD.parts, hcat]

end Lgr.Props.C13

namespace Lgr.Props.C15
open Repertoire

/-- Accuracy of the report: the label is the concatenation of pieces, some of them the returned
characters, the others the reported code points, in order; each piece says what is true of its
offset: a returned character is a longest valid one; at the offset of a reported code point no
repertoire character is valid, the report names exactly the rules of the characters that match
there, and it names none iff none matches. The label is accepted iff nothing is reported. -/
theorem report_accurate {env : Env} {r : Repertoire} (h : WF r) {label : Seq}
    {p : Env.Prelim} (he : env.prelim r label = .ok p) :
    (p.ok = true ↔ p.invalid = []) ∧
    ∃ items : List Piece, items.flatMap Piece.cps = label ∧
      p.chars = items.filterMap Piece.char? ∧ p.invalid = items.filterMap Piece.bad? ∧
      p.parts = p.chars.flatMap CharObj.cp ∧
      ∀ pre it post, items = pre ++ it :: post →
        it.Right env r label (pre.flatMap Piece.cps).length := by
  obtain ⟨items, hD⟩ := prelim_describes h he
  exact ⟨hD.ok, items, hD.concat, hD.chars, hD.invalid, hD.parts, by simpa using hD.right⟩

/-- Every reported code point occurs in the label, and parts and report together have the length
of the label. -/
theorem report_covers {env : Env} {r : Repertoire} (h : WF r) {label : Seq}
    {p : Env.Prelim} (he : env.prelim r label = .ok p) :
    (∀ x l, (x, l) ∈ p.invalid → x ∈ label) ∧
    p.parts.length + p.invalid.length = label.length ∧
    (p.parts ++ p.invalid.map Prod.fst).Perm label := by
  obtain ⟨items, hD⟩ := prelim_describes h he
  have hperm : ∀ items : List Piece, ((items.filterMap Piece.char?).flatMap CharObj.cp ++
      (items.filterMap Piece.bad?).map Prod.fst).Perm (items.flatMap Piece.cps) := by
    intro items
    induction items with
    | nil => simp
    | cons it items ih =>
      cases it with
      | char c =>
        simp only [List.filterMap_cons, Piece.char?, Piece.bad?, Piece.cps, List.flatMap_cons,
          List.append_assoc]
        exact ih.append_left _
      | bad x l =>
        simp [List.filterMap_cons, Piece.char?, Piece.bad?, Piece.cps]
        exact List.perm_middle.trans (ih.cons x)
  have hp := hperm items
  rw [← hD.chars, ← hD.parts, ← hD.invalid, hD.concat] at hp
  refine ⟨fun x l hx => hp.mem_iff.1 ?_, by simpa using hp.length_eq, hp⟩
  exact List.mem_append_right _ (List.mem_map.2 ⟨_, hx, rfl⟩)

end Lgr.Props.C15

namespace Lgr.Props
open Repertoire

/-- Helper: a segmentation of the tail of `label` found at offset `o`. -/
structure SegFrom (env : Env) (r : Repertoire) (label : Seq) (o : Nat) (cs : List CharObj) : Prop where
  concat : cs.flatMap CharObj.cp = label.drop o
  stored : ∀ c ∈ cs, r.getChar c.cp = .ok c
  context : ∀ pre c post, cs = pre ++ c :: post →
    CharCtx env label (o + (pre.flatMap CharObj.cp).length) c

theorem segFrom_zero {env r label cs} : SegFrom env r label 0 cs ↔ Segmentation env r label cs := by
  constructor
  · rintro ⟨h1, h2, h3⟩; exact ⟨by simpa using h1, h2, by simpa using h3⟩
  · rintro ⟨h1, h2, h3⟩; exact ⟨by simpa using h1, h2, by simpa using h3⟩

theorem segFrom_nil {env r label o} : SegFrom env r label o [] ↔ label.drop o = [] := by
  constructor
  · intro h; simpa using h.concat.symm
  · intro h; exact ⟨by simp [h], by simp, by simp⟩

theorem segFrom_cons {env r label o} {c : CharObj} {cs : List CharObj} :
    SegFrom env r label o (c :: cs) ↔
      MatchesAt r label o c ∧ CharCtx env label o c ∧ SegFrom env r label (o + c.len) cs := by
  constructor
  · rintro ⟨h1, h2, h3⟩
    have h1' : c.cp ++ cs.flatMap CharObj.cp = label.drop o := by simpa using h1
    refine ⟨⟨h2 c List.mem_cons_self, ⟨_, h1'⟩⟩, by simpa using h3 [] c cs rfl, ?_, ?_, ?_⟩
    · rw [← List.drop_drop, ← h1', CharObj.len, List.drop_left]
    · exact fun d hd => h2 d (List.mem_cons_of_mem _ hd)
    · intro pre d post hs
      have := h3 (c :: pre) d post (by simp [hs])
      simpa [CharObj.len, Nat.add_assoc] using this
  · rintro ⟨⟨hg, hp⟩, hc, h1, h2, h3⟩
    refine ⟨?_, ?_, ?_⟩
    · rw [List.flatMap_cons, h1, ← List.drop_drop]
      obtain ⟨u, hu⟩ := hp
      rw [← hu, CharObj.len, List.drop_left]
    · intro d hd
      rcases List.mem_cons.1 hd with rfl | hd
      · exact hg
      · exact h2 d hd
    · intro pre d post hs
      cases pre with
      | nil => simp at hs; obtain ⟨rfl, _⟩ := hs; simpa using hc
      | cons e pre =>
        simp at hs
        obtain ⟨rfl, hs⟩ := hs
        have := h3 pre d post hs
        simpa [CharObj.len, Nat.add_assoc] using this

end Lgr.Props

namespace Lgr.Props.C14
open Repertoire

/-- The property at full strength: every label with a segmentation is accepted. -/
def Complete : Prop :=
  ∀ (env : Env) (ops : List Op) (label : Seq) (cs : List CharObj),
    Segmentation env (run {} ops) label cs →
      ∃ p, env.prelim (run {} ops) label = .ok p ∧ p.ok = true

/-- It is false: with entries `a`, `ab` and `bc`, the label `abc` is `a` followed by `bc`, but the
test takes the longest match `ab` first and rejects `c`. -/
theorem segmentable_label_rejected : ¬ Complete := by
  intro h
  have hr := h ⟨fun _ _ _ _ => .ok true⟩
    [.addChar [97] {}, .addChar [97, 98] {}, .addChar [98, 99] {}] [97, 98, 99]
    [{ cp := [97] }, { cp := [98, 99] }]
    (by
      rw [← segFrom_zero, segFrom_cons, segFrom_cons, segFrom_nil]
      refine ⟨⟨by decide, ⟨[98, 99], rfl⟩⟩, ⟨by simp, by simp⟩,
        ⟨by decide, ⟨[], rfl⟩⟩, ⟨by simp, by simp⟩, rfl⟩)
  have hf : ((Env.mk fun _ _ _ _ => .ok true).prelim
      (run {} [.addChar [97] {}, .addChar [97, 98] {}, .addChar [98, 99] {}])
      [97, 98, 99]).map Env.Prelim.ok = .ok false := by decide +kernel
  obtain ⟨p, hp, hok⟩ := hr
  rw [hp] at hf
  simp [Except.map, hok] at hf

/-- No repertoire entry is a proper prefix of another one. -/
def PrefixFree (r : Repertoire) : Prop :=
  ∀ c d, r.getChar c.cp = .ok c → r.getChar d.cp = .ok d → c.cp <+: d.cp → c = d

theorem no_bad {env : Env} {r : Repertoire} (hpf : PrefixFree r) {label : Seq} :
    ∀ (items : List Piece) (o : Nat) (cs : List CharObj),
      items.flatMap Piece.cps = label.drop o →
      (∀ pre it post, items = pre ++ it :: post →
        it.Right env r label (o + (pre.flatMap Piece.cps).length)) →
      SegFrom env r label o cs → items.filterMap Piece.bad? = []
  | [], _, _, _, _, _ => rfl
  | it :: items, o, cs, hcat, hright, hseg => by
    have hr0 : it.Right env r label o := by simpa using hright [] it items rfl
    have hne : it.cps ≠ [] := by
      cases it with
      | char c => exact getChar_ne_nil hr0.1.1
      | bad x l => simp [Piece.cps]
    cases cs with
    | nil =>
      rw [segFrom_nil.1 hseg] at hcat
      simp at hcat
      exact absurd hcat.1 hne
    | cons c cs =>
      obtain ⟨hm, hc, hseg⟩ := segFrom_cons.1 hseg
      cases it with
      | bad x l => exact absurd (hr0.1 c hm) (ctx_not_both hc)
      | char d =>
        have : d = c := by
          rcases List.prefix_or_prefix_of_prefix hr0.1.2 hm.2 with h | h
          · exact hpf d c hr0.1.1 hm.1 h
          · exact (hpf c d hm.1 hr0.1.1 h).symm
        subst this
        have ht := no_bad hpf items (o + d.len) cs (by
            have h1 : d.cp ++ items.flatMap Piece.cps = label.drop o := by
              simpa [Piece.cps] using hcat
            rw [← List.drop_drop, ← h1, CharObj.len, List.drop_left]) (by
            intro pre it post hs
            have := hright (.char d :: pre) it post (by simp [hs])
            simpa [Piece.cps, CharObj.len, Nat.add_assoc] using this) hseg
        rw [List.filterMap_cons]
        simpa [Piece.bad?] using ht

/-- Completeness for repertoires in which no entry is a proper prefix of another one (in
particular, repertoires of single code points): the test accepts exactly the labels that have a
segmentation. Missing for the full property: repertoires with overlapping prefixes, where it is
false. -/
theorem accepts_iff_segmentable_partial {env : Env} {r : Repertoire} (h : WF r)
    (hpf : PrefixFree r) {label : Seq} {p : Env.Prelim} (he : env.prelim r label = .ok p) :
    p.ok = true ↔ ∃ cs, Segmentation env r label cs := by
  constructor
  · intro hok; exact ⟨_, (C13.accepted_is_segmentation h he hok).1⟩
  · rintro ⟨cs, hs⟩
    obtain ⟨items, hD⟩ := prelim_describes h he
    rw [hD.ok, hD.invalid]
    exact no_bad hpf items 0 cs (by simpa using hD.concat) hD.right (segFrom_zero.2 hs)

/-- A repertoire of single code points is prefix free. -/
theorem prefixFree_of_single {r : Repertoire}
    (h1 : ∀ c, r.getChar c.cp = .ok c → c.len = 1) : PrefixFree r := by
  intro c d hc hd hp
  have : c.cp = d.cp := hp.eq_of_length (by
    have := h1 c hc; have := h1 d hd; simp only [CharObj.len] at *; omega)
  rw [this] at hc
  rw [hd] at hc
  simpa using hc.symm

/-- Completeness, second case: a label each code point of which is itself an entry without context
rule is accepted, whatever sequences the repertoire has besides. -/
theorem accepts_plain_labels_partial {env : Env} {r : Repertoire} (h : WF r) {label : Seq}
    {p : Env.Prelim} (he : env.prelim r label = .ok p)
    (hall : ∀ x ∈ label, ∃ c, r.getChar [x] = .ok c ∧ c.attrs.whenR = none ∧ c.attrs.notWhenR = none) :
    p.ok = true := by
  obtain ⟨items, hD⟩ := prelim_describes h he
  rw [hD.ok, hD.invalid, List.filterMap_eq_nil_iff]
  intro it hit
  cases it with
  | char c => rfl
  | bad x l =>
    exfalso
    obtain ⟨pre, post, hs⟩ := List.append_of_mem hit
    have hr := hD.right pre _ post hs
    have hd : label.drop (0 + (pre.flatMap Piece.cps).length) = x :: post.flatMap Piece.cps := by
      have : label = pre.flatMap Piece.cps ++ (x :: post.flatMap Piece.cps) := by
        rw [← hD.concat, hs]; simp [Piece.cps]
      conv_lhs => rw [this]
      rw [Nat.zero_add, List.drop_left]
    obtain ⟨c, hg, hw, hn⟩ := hall x (by
      have : x ∈ label.drop (0 + (pre.flatMap Piece.cps).length) := by rw [hd]; simp
      exact List.mem_of_mem_drop this)
    have hcp : c.cp = [x] := lookup_cp (getChar_ok.1 hg)
    have := hr.1 c ⟨by rw [hcp]; exact hg, by rw [hd, hcp]; exact ⟨_, rfl⟩⟩
    simp [CtxFails, hw, hn] at this

/-- Non-vacuity: a prefix free repertoire with a sequence, and a conditional code point. -/
example : ((Env.mk fun _ _ _ i => .ok (i == 0)).prelim
    (run {} [.addChar [97] { whenR := some "first" }, .addChar [98, 99] {}]) [97, 98, 99]).map
      (fun p => (p.ok, p.chars.map CharObj.cp)) = .ok (true, [[97], [98, 99]]) := by decide +kernel

example : ((Env.mk fun _ _ _ i => .ok (i == 0)).prelim
    (run {} [.addChar [97] { whenR := some "first" }, .addChar [98, 99] {}]) [97, 97, 98]).map
      (fun p => (p.ok, p.parts, p.invalid)) =
    .ok (false, [97], [(97, some ["first"]), (98, none)]) := by rfl

end Lgr.Props.C14

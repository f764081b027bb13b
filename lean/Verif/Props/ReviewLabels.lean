import Verif.Props.ReviewRules

/-!
# C83: labels which are tried on a table
-/

namespace Lgr.Props.C83
open Lgr Review Repertoire

/-- The label is made of entries of the repertoire. -/
inductive Made (r : Repertoire) : Seq → Prop
  | last {k : Seq} : r.hasCp k = true → Made r k
  | step {k s : Seq} : r.hasCp k = true → Made r s → Made r (k ++ s)

/-- The label is made of entries of the repertoire, the last one being a sequence. -/
inductive EndsSeq (r : Repertoire) : Seq → Prop
  | last {k : Seq} : r.hasCp k = true → 2 ≤ k.length → EndsSeq r k
  | step {k s : Seq} : r.hasCp k = true → EndsSeq r s → EndsSeq r (k ++ s)

theorem hasCp_ne {r : Repertoire} {k : Seq} (h : r.hasCp k = true) : k ≠ [] := by
  rintro rfl; rw [hasCp_iff] at h; simp at h

theorem Made.ne {r : Repertoire} {s : Seq} (h : Made r s) : s ≠ [] := by
  induction h with
  | last h => exact hasCp_ne h
  | step h _ ih => simp [hasCp_ne h]

theorem EndsSeq.ne {r : Repertoire} {s : Seq} (h : EndsSeq r s) : s ≠ [] := by
  induction h with
  | last h => exact hasCp_ne h
  | step h _ ih => simp [hasCp_ne h]

theorem made_iff {r : Repertoire} {s : Seq} :
    Made r s ↔ r.hasCp s = true ∨ ∃ k t, s = k ++ t ∧ r.hasCp k = true ∧ Made r t := by
  constructor
  · intro h
    cases h with
    | last h => exact Or.inl h
    | step h h' => exact Or.inr ⟨_, _, rfl, h, h'⟩
  · rintro (h | ⟨k, t, rfl, h, h'⟩)
    · exact .last h
    · exact .step h h'

theorem ends_iff {r : Repertoire} {s : Seq} :
    EndsSeq r s ↔ (r.hasCp s = true ∧ 2 ≤ s.length) ∨ ∃ k t, s = k ++ t ∧ r.hasCp k = true ∧ EndsSeq r t := by
  constructor
  · intro h
    cases h with
    | last h h' => exact Or.inl ⟨h, h'⟩
    | step h h' => exact Or.inr ⟨_, _, rfl, h, h'⟩
  · rintro (⟨h, h'⟩ | ⟨k, t, rfl, h, h'⟩)
    · exact .last h h'
    · exact .step h h'

/-- What the check says of a label. -/
def Answer (r : Repertoire) (s : Seq) (o : Except Err Bool) : Prop :=
  if s = [] then o = .error .indexError
  else (EndsSeq r s ∧ o = .error .indexError) ∨ (¬ EndsSeq r s ∧ ∃ b, o = .ok b ∧ (b = true ↔ Made r s))

theorem loop_spec {r : Repertoire} {rec : Seq → Except Err Bool} {x : Nat} {xs : Seq}
    (hrec : ∀ t, t.length ≤ xs.length → Answer r t (rec t)) (cs : List CharObj)
    (hcs : ∀ c ∈ cs, r.hasCp c.cp = true ∧ ∃ t, c.cp = x :: t)
    (hs : cs.Pairwise (fun a b => b.len ≤ a.len)) (b : Bool) :
    ((∃ c ∈ cs, (c.cp = x :: xs ∧ 2 ≤ c.cp.length) ∨ (c.cp <+: x :: xs ∧ EndsSeq r ((x :: xs).drop c.len))) ∧
      coverLoop rec (x :: xs) b cs = .error .indexError) ∨
    (¬ (∃ c ∈ cs, (c.cp = x :: xs ∧ 2 ≤ c.cp.length) ∨ (c.cp <+: x :: xs ∧ EndsSeq r ((x :: xs).drop c.len))) ∧
      ∃ b', coverLoop rec (x :: xs) b cs = .ok b' ∧
        (b' = true ↔ b = true ∨ ∃ c ∈ cs, (c.cp = x :: xs) ∨ (c.cp <+: x :: xs ∧ Made r ((x :: xs).drop c.len)))) := by
  induction cs generalizing b with
  | nil => right; simp [coverLoop]
  | cons c cs ih =>
    obtain ⟨hc1, t, hct⟩ := hcs c (by simp)
    have ih' := ih (fun d hd => hcs d (by simp [hd])) hs.of_cons
    by_cases hseq : c.isSequence = true
    · have hlen : 2 ≤ c.cp.length := of_decide_eq_true hseq
      by_cases hp : c.isPrefixOf (x :: xs) = true
      · have hp' := (CharObj.isPrefixOf_iff c _).1 hp
        have hdl : ((x :: xs).drop c.len).length ≤ xs.length := by
          rw [List.length_drop, CharObj.len]; simp only [List.length_cons]; omega
        have ha := hrec _ hdl
        unfold Answer at ha
        by_cases hd : (x :: xs).drop c.len = []
        · rw [if_pos hd] at ha
          left
          refine ⟨⟨c, by simp, Or.inl ⟨?_, hlen⟩⟩, ?_⟩
          · rw [List.drop_eq_nil_iff, CharObj.len] at hd
            exact hp'.eq_of_length_le hd
          · simp only [coverLoop, hseq, if_true, hp, ha]
        · rw [if_neg hd] at ha
          rcases ha with ⟨h1, h2⟩ | ⟨h1, b', h2, h3⟩
          · left
            refine ⟨⟨c, by simp, Or.inr ⟨hp', h1⟩⟩, ?_⟩
            simp only [coverLoop, hseq, if_true, hp, h2]
          · have hne : c.cp ≠ x :: xs := by
              intro h; apply hd; rw [CharObj.len, h, List.drop_length]
            have he : coverLoop rec (x :: xs) b (c :: cs) = coverLoop rec (x :: xs) (b || b') cs := by
              simp only [coverLoop, hseq, if_true, hp, h2]
            rw [he]
            rcases ih' (b || b') with ⟨⟨d, hd1, hd2⟩, h4⟩ | ⟨h4, b'', h5, h6⟩
            · exact Or.inl ⟨⟨d, by simp [hd1], hd2⟩, h4⟩
            · right
              refine ⟨?_, b'', h5, ?_⟩
              · rintro ⟨d, hd1, hd2⟩
                rcases List.mem_cons.1 hd1 with rfl | hd1
                · rcases hd2 with hd2 | hd2
                  · exact hne hd2.1
                  · exact h1 hd2.2
                · exact h4 ⟨d, hd1, hd2⟩
              · rw [h6, Bool.or_eq_true, h3]
                constructor
                · rintro ((h | h) | ⟨d, hd1, hd2⟩)
                  · exact Or.inl h
                  · exact Or.inr ⟨c, by simp, Or.inr ⟨hp', h⟩⟩
                  · exact Or.inr ⟨d, by simp [hd1], hd2⟩
                · rintro (h | ⟨d, hd1, hd2⟩)
                  · exact Or.inl (Or.inl h)
                  · rcases List.mem_cons.1 hd1 with rfl | hd1
                    · rcases hd2 with hd2 | hd2
                      · exact absurd hd2 hne
                      · exact Or.inl (Or.inr hd2.2)
                    · exact Or.inr ⟨d, hd1, hd2⟩
      · have hp' : ¬ c.cp <+: x :: xs := fun h => hp ((CharObj.isPrefixOf_iff c _).2 h)
        have hne : c.cp ≠ x :: xs := fun h => hp' (h ▸ List.prefix_rfl)
        have he : coverLoop rec (x :: xs) b (c :: cs) = coverLoop rec (x :: xs) b cs := by
          simp only [coverLoop, hseq, if_true, if_neg hp]
        rw [he]
        simp only [List.mem_cons, exists_eq_or_imp, hne, hp', false_and, or_self, false_or]
        exact ih' b
    · have hone : c.cp = [x] := by
        rw [hct]
        cases t with
        | nil => rfl
        | cons y t => simp [CharObj.isSequence, hct] at hseq
      have hp' : c.cp <+: x :: xs := by rw [hone]; simp
      by_cases hl : 1 < (x :: xs).length
      · have hxs : xs ≠ [] := by rintro rfl; simp at hl
        have hne : c.cp ≠ x :: xs := by rw [hone]; simpa using hxs.symm
        have hdrop : (x :: xs).drop c.len = xs := by rw [CharObj.len, hone]; simp
        have ha := hrec xs le_rfl
        unfold Answer at ha
        rw [if_neg hxs] at ha
        rcases ha with ⟨h1, h2⟩ | ⟨h1, b', h2, h3⟩
        · left
          refine ⟨⟨c, by simp, Or.inr ⟨hp', by rw [hdrop]; exact h1⟩⟩, ?_⟩
          simp only [coverLoop, hseq, if_pos hl, List.drop_one, List.tail_cons, h2]
          simp
        · have he : coverLoop rec (x :: xs) b (c :: cs) = coverLoop rec (x :: xs) (b || b') cs := by
            simp only [coverLoop, hseq, if_pos hl, List.drop_one, List.tail_cons, h2]
            simp
          rw [he]
          rcases ih' (b || b') with ⟨⟨d, hd1, hd2⟩, h4⟩ | ⟨h4, b'', h5, h6⟩
          · exact Or.inl ⟨⟨d, by simp [hd1], hd2⟩, h4⟩
          · right
            refine ⟨?_, b'', h5, ?_⟩
            · rintro ⟨d, hd1, hd2⟩
              rcases List.mem_cons.1 hd1 with rfl | hd1
              · rcases hd2 with hd2 | hd2
                · exact hne hd2.1
                · rw [hdrop] at hd2; exact h1 hd2.2
              · exact h4 ⟨d, hd1, hd2⟩
            · rw [h6, Bool.or_eq_true, h3]
              constructor
              · rintro ((h | h) | ⟨d, hd1, hd2⟩)
                · exact Or.inl h
                · exact Or.inr ⟨c, by simp, Or.inr ⟨hp', by rw [hdrop]; exact h⟩⟩
                · exact Or.inr ⟨d, by simp [hd1], hd2⟩
              · rintro (h | ⟨d, hd1, hd2⟩)
                · exact Or.inl (Or.inl h)
                · rcases List.mem_cons.1 hd1 with rfl | hd1
                  · rcases hd2 with hd2 | hd2
                    · exact absurd hd2 hne
                    · rw [hdrop] at hd2; exact Or.inl (Or.inr hd2.2)
                  · exact Or.inr ⟨d, hd1, hd2⟩
      · have hxs : xs = [] := by
          cases xs with
          | nil => rfl
          | cons y xs => simp at hl
        subst hxs
        right
        refine ⟨?_, true, ?_, ?_⟩
        · rintro ⟨d, hd1, hd2⟩
          have hd3 := (hcs d hd1)
          rcases hd2 with hd2 | hd2
          · have := hd2.2; rw [hd2.1] at this; simp at this
          · have h5 := hd2.2.ne
            obtain ⟨t', ht'⟩ := hd3.2
            apply h5
            rw [CharObj.len, ht']; simp
        · simp only [coverLoop, hseq, if_neg hl]; simp
        · simp only [true_iff]
          exact Or.inr ⟨c, by simp, Or.inl hone⟩

theorem cover_spec {r : Repertoire} (h : WF r) (fuel : Nat) (s : Seq) (hf : s.length < fuel) :
    Answer r s (cover r fuel s) := by
  induction fuel generalizing s with
  | zero => omega
  | succ fuel ih =>
    cases s with
    | nil => simp [Answer, cover]
    | cons x xs =>
      have hstart : ∀ k t, x :: xs = k ++ t → r.hasCp k = true →
          ∃ c, r.lookup k = some c ∧ ∃ t', c.cp = x :: t' := by
        intro k t he hk
        rw [hasCp_iff, Option.isSome_iff_exists] at hk
        obtain ⟨c, hc⟩ := hk
        have hcp := lookup_cp hc
        cases k with
        | nil => simp at hc
        | cons y k =>
          rw [List.cons_append, List.cons.injEq] at he
          exact ⟨c, hc, k, by rw [hcp, he.1]⟩
      unfold Answer
      rw [if_neg (by simp)]
      cases hp : r.charsFromPrefix x with
      | error e =>
        have hno : ∀ k t, x :: xs = k ++ t → ¬ r.hasCp k = true := by
          intro k t he hk
          obtain ⟨c, hc, hct⟩ := hstart k t he hk
          exact charsFromPrefix_error h hp (by rw [getChar_ok, lookup_cp hc]; exact hc) hct
        have hnot : e = .notInLGR [x] := by
          unfold charsFromPrefix at hp
          split at hp
          · exact (Except.error.inj hp).symm
          · cases hp
        subst hnot
        right
        refine ⟨?_, false, by simp only [cover, hp], ?_⟩
        · rw [ends_iff]
          rintro (⟨h1, _⟩ | ⟨k, t, he, hk, _⟩)
          · exact hno _ [] (by simp) h1
          · exact hno k t he hk
        · rw [made_iff]
          simp only [Bool.false_eq_true, false_iff, not_or]
          refine ⟨hno _ [] (by simp), ?_⟩
          rintro ⟨k, t, he, hk, _⟩
          exact hno k t he hk
      | ok cs =>
        obtain ⟨hmem, hsort, -⟩ := charsFromPrefix_ok h hp
        have hcs : ∀ c ∈ cs, r.hasCp c.cp = true ∧ ∃ t, c.cp = x :: t := by
          intro c hc
          obtain ⟨h1, h2⟩ := (hmem c).1 hc
          rw [getChar_ok] at h1
          exact ⟨by rw [hasCp_iff, h1]; rfl, h2⟩
        have hin : ∀ k t, x :: xs = k ++ t → r.hasCp k = true → ∃ c ∈ cs, c.cp = k := by
          intro k t he hk
          obtain ⟨c, hc, hct⟩ := hstart k t he hk
          have := lookup_cp hc
          exact ⟨c, (hmem c).2 ⟨by rw [getChar_ok, this]; exact hc, hct⟩, this⟩
        have hcover : cover r (fuel + 1) (x :: xs) = coverLoop (cover r fuel) (x :: xs) false cs := by
          simp only [cover, hp]
        have hrec : ∀ t, t.length ≤ xs.length → Answer r t (cover r fuel t) := by
          intro t ht
          apply ih
          simp only [List.length_cons] at hf
          omega
        have e1 : (∃ c ∈ cs, (c.cp = x :: xs ∧ 2 ≤ c.cp.length) ∨
            (c.cp <+: x :: xs ∧ EndsSeq r ((x :: xs).drop c.len))) ↔ EndsSeq r (x :: xs) := by
          rw [ends_iff]
          constructor
          · rintro ⟨c, hc, ⟨h1, h2⟩ | ⟨⟨t, ht⟩, h2⟩⟩
            · exact Or.inl (h1 ▸ ⟨(hcs c hc).1, h2⟩)
            · refine Or.inr ⟨c.cp, t, ht.symm, (hcs c hc).1, ?_⟩
              rw [← ht, CharObj.len, List.drop_left] at h2
              exact h2
          · rintro (⟨h1, h2⟩ | ⟨k, t, he, hk, ht⟩)
            · obtain ⟨c, hc, he⟩ := hin _ [] (by simp) h1
              exact ⟨c, hc, Or.inl ⟨he, he ▸ h2⟩⟩
            · obtain ⟨c, hc, hck⟩ := hin k t he hk
              refine ⟨c, hc, Or.inr ⟨⟨t, by rw [he, hck]⟩, ?_⟩⟩
              rw [he, CharObj.len, hck, List.drop_left]; exact ht
        have e2 : (∃ c ∈ cs, (c.cp = x :: xs) ∨
            (c.cp <+: x :: xs ∧ Made r ((x :: xs).drop c.len))) ↔ Made r (x :: xs) := by
          rw [made_iff]
          constructor
          · rintro ⟨c, hc, h1 | ⟨⟨t, ht⟩, h2⟩⟩
            · exact Or.inl (h1 ▸ (hcs c hc).1)
            · refine Or.inr ⟨c.cp, t, ht.symm, (hcs c hc).1, ?_⟩
              rw [← ht, CharObj.len, List.drop_left] at h2
              exact h2
          · rintro (h1 | ⟨k, t, he, hk, ht⟩)
            · obtain ⟨c, hc, he⟩ := hin _ [] (by simp) h1
              exact ⟨c, hc, Or.inl he⟩
            · obtain ⟨c, hc, hck⟩ := hin k t he hk
              refine ⟨c, hc, Or.inr ⟨⟨t, by rw [he, hck]⟩, ?_⟩⟩
              rw [he, CharObj.len, hck, List.drop_left]; exact ht
        rw [hcover]
        have := loop_spec hrec cs hcs hsort false
        rw [e1] at this
        rcases this with h1 | ⟨h1, b', h2, h3⟩
        · exact Or.inl h1
        · refine Or.inr ⟨h1, b', h2, ?_⟩
          rw [h3, e2]; simp

/-- **C83** (what the check of a label does) It raises an `IndexError` if the label is empty or can be made of
entries of the repertoire the last of which is a sequence, and otherwise says whether it can be made of
entries. -/
theorem check_exact {r : Repertoire} (h : WF r) (s : Seq) :
    (checkLabelCps r s = .error .indexError ↔ s = [] ∨ EndsSeq r s) ∧
    (checkLabelCps r s = .ok true ↔ Made r s ∧ ¬ EndsSeq r s) ∧
    (checkLabelCps r s = .ok false ↔ s ≠ [] ∧ ¬ Made r s ∧ ¬ EndsSeq r s) := by
  have ha := cover_spec h (s.length + 1) s (Nat.lt_succ_self _)
  unfold checkLabelCps
  unfold Answer at ha
  by_cases hs : s = []
  · rw [if_pos hs] at ha
    have h1 : ¬ Made r s := fun h => h.ne hs
    rw [ha]; simp [hs]
    subst hs
    exact fun h => absurd h h1
  · rw [if_neg hs] at ha
    rcases ha with ⟨h1, h2⟩ | ⟨h1, b, h2, h3⟩
    · rw [h2]; simp [h1]
    · rw [h2]; cases b <;> simp_all

theorem made_of_ends {r : Repertoire} {s : Seq} (h : EndsSeq r s) : Made r s := by
  induction h with
  | last h _ => exact .last h
  | step h _ ih => exact .step h ih

/-- What **C83** says of the answer on general rules: with `labels` that the rule should exclude. -/
def Says (r : Repertoire) (eligible : Seq → Bool) (labels : List Seq) : Option Bool → Prop
  | some true => labels ≠ [] ∧ ∀ l ∈ labels, Made r l ∧ eligible l = false
  | some false => ∃ pre l post, labels = pre ++ l :: post ∧ Made r l ∧ eligible l = true ∧
      ∀ m ∈ pre, Made r m ∧ eligible m = false
  | none => labels = [] ∨ ∃ pre l post, labels = pre ++ l :: post ∧ ¬ Made r l ∧
      ∀ m ∈ pre, Made r m ∧ eligible m = false

theorem loop_exact {r : Repertoire} (h : WF r) (eligible : Seq → Bool) (res : Option Bool) (labels : List Seq)
    (hl : ∀ l ∈ labels, l ≠ [] ∧ ¬ EndsSeq r l) :
    ∃ o, reportLoop r (fun s => .ok (eligible s)) res labels = .ok o ∧
      (labels = [] ∧ o = res ∨ labels ≠ [] ∧ Says r eligible labels o) := by
  induction labels generalizing res with
  | nil => exact ⟨res, rfl, Or.inl ⟨rfl, rfl⟩⟩
  | cons l ls ih =>
    obtain ⟨h1, h2⟩ := hl l (by simp)
    obtain ⟨e1, e2, e3⟩ := check_exact h l
    by_cases hm : Made r l
    · have hc := e2.2 ⟨hm, h2⟩
      cases he : eligible l with
      | true =>
        refine ⟨some false, by simp only [reportLoop, hc, he], Or.inr ⟨by simp, ?_⟩⟩
        exact ⟨[], l, ls, rfl, hm, he, by simp⟩
      | false =>
        obtain ⟨o, ho, h3⟩ := ih (some true) (fun m hm => hl m (by simp [hm]))
        refine ⟨o, by simp only [reportLoop, hc, he]; exact ho, Or.inr ⟨by simp, ?_⟩⟩
        rcases h3 with ⟨rfl, rfl⟩ | ⟨_, h3⟩
        · exact ⟨by simp, by simp [hm, he]⟩
        · rcases o with _ | _ | _
          · rcases h3 with rfl | ⟨pre, m, post, rfl, h4, h5⟩
            · contradiction
            · exact Or.inr ⟨l :: pre, m, post, rfl, h4, by simpa [hm, he] using h5⟩
          · obtain ⟨pre, m, post, rfl, h4, h5, h6⟩ := h3
            exact ⟨l :: pre, m, post, rfl, h4, h5, by simpa [hm, he] using h6⟩
          · exact ⟨by simp, by simpa [hm, he] using h3.2⟩
    · have hc := e3.2 ⟨h1, hm, h2⟩
      refine ⟨none, by simp only [reportLoop, hc], Or.inr ⟨by simp, Or.inr ⟨[], l, ls, rfl, hm, by simp⟩⟩⟩

/-- **C83** holds if no label ends with a sequence of the repertoire: the answer is that the rule exists iff
all labels are made of the code points of the table and none is eligible, that it does not exist if such a
label is eligible, and none otherwise (the first label that is not of the first kind decides). -/
theorem report_partial {r : Repertoire} (h : WF r) (eligible : Seq → Bool) (cond : Bool) (labels : List Seq)
    (hl : ∀ l ∈ labels, l ≠ [] ∧ ¬ EndsSeq r l) :
    ∃ o, makeReport r (fun s => .ok (eligible s)) cond labels = .ok (cond, o) ∧
      (cond = false → o = none) ∧ (cond = true → ∀ o', o = o' ↔ Says r eligible labels o') := by
  cases cond with
  | false => exact ⟨none, rfl, fun _ => rfl, by simp⟩
  | true =>
    obtain ⟨o, ho, h1⟩ := loop_exact h eligible none labels hl
    refine ⟨o, by simp only [makeReport, ho]; rfl, by simp, fun _ => ?_⟩
    have hs : Says r eligible labels o := by
      rcases h1 with ⟨rfl, rfl⟩ | ⟨_, h1⟩
      · exact Or.inl rfl
      · exact h1
    intro o'
    constructor
    · rintro rfl; exact hs
    · intro hs'
      have key : ∀ pre l post pre' l' post', labels = pre ++ l :: post → labels = pre' ++ l' :: post' →
          (∀ m ∈ pre, Made r m ∧ eligible m = false) → (∀ m ∈ pre', Made r m ∧ eligible m = false) →
          ¬ (Made r l ∧ eligible l = false) → ¬ (Made r l' ∧ eligible l' = false) → l = l' := by
        intro pre l post pre' l' post' e1 e2 h2 h3 h4 h5
        rw [e1] at e2
        rw [List.append_eq_append_iff] at e2
        rcases e2 with ⟨a, ha, hb⟩ | ⟨a, ha, hb⟩
        · cases a with
          | nil => simp at hb; exact hb.1
          | cons y a =>
            simp at hb
            exact absurd (h3 l (by rw [ha, hb.1]; simp)) h4
        · cases a with
          | nil => simp at hb; exact hb.1.symm
          | cons y a =>
            simp at hb
            exact absurd (h2 l' (by rw [ha, hb.1]; simp)) h5
      rcases o with _ | _ | _ <;> rcases o' with _ | _ | _ <;> try rfl
      · obtain ⟨pre', l', post', e2, a1, a2, a3⟩ := hs'
        rcases hs with rfl | ⟨pre, l, post, e1, b1, b2⟩
        · simp at e2
        · have := key _ _ _ _ _ _ e1 e2 b2 a3 (by simp [b1]) (by simp [a2])
          subst this; exact absurd a1 b1
      · rcases hs with rfl | ⟨pre, l, post, e1, b1, b2⟩
        · exact absurd rfl hs'.1
        · exact absurd (hs'.2 l (by rw [e1]; simp)).1 b1
      · obtain ⟨pre, l, post, e1, a1, a2, a3⟩ := hs
        rcases hs' with rfl | ⟨pre', l', post', e2, b1, b2⟩
        · simp at e1
        · have := key _ _ _ _ _ _ e1 e2 a3 b2 (by simp [a2]) (by simp [b1])
          subst this; exact absurd a1 b1
      · obtain ⟨pre, l, post, e1, a1, a2, a3⟩ := hs
        have := (hs'.2 l (by rw [e1]; simp)).2
        rw [a2] at this; cases this
      · rcases hs' with rfl | ⟨pre, l, post, e1, b1, b2⟩
        · exact absurd rfl hs.1
        · exact absurd (hs.2 l (by rw [e1]; simp)).1 b1
      · obtain ⟨pre, l, post, e1, a1, a2, a3⟩ := hs'
        have := (hs.2 l (by rw [e1]; simp)).2
        rw [a2] at this; cases this

/-- A table with a-, and the sequence b-c. -/
def sample : Repertoire :=
  (LGR.run {} [(C06.ctx0, .addCp (.int 97) {}), (C06.ctx0, .addCp (.seq [98, 99]) {})]).rep

/-- **C83** is violated: the review raises an exception if a label ends with a sequence of the repertoire. -/
theorem raises : ∃ labels : List Seq, (∀ l ∈ labels, l ≠ [] ∧ Made sample l) ∧
    ∀ eligible, makeReport sample eligible true labels = .error .indexError := by
  refine ⟨[[97, 98, 99]], ?_, fun e => ?_⟩
  · simp only [List.mem_singleton, forall_eq]
    exact ⟨by simp, .step (k := [97]) (s := [98, 99]) (by decide +kernel) (.last (by decide +kernel))⟩
  · have : checkLabelCps sample [97, 98, 99] = .error .indexError := by decide +kernel
    simp only [makeReport, if_true, reportLoop, this]

/-- The hypotheses of `report_partial` are met by a label which ends with a single code point, after a
sequence. -/
example : WF sample ∧ checkLabelCps sample [98, 99, 97] = .ok true ∧ ¬ EndsSeq sample [98, 99, 97] ∧
    makeReport sample (fun _ => .ok false) true [[98, 99, 97]] = .ok (true, some true) := by
  have h1 : WF sample := (run_wf _).1
  have h2 : checkLabelCps sample [98, 99, 97] = .ok true := by decide +kernel
  exact ⟨h1, h2, ((check_exact h1 _).2.1.1 h2).2, by decide +kernel⟩

end Lgr.Props.C83

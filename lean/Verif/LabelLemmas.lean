import Verif.Label
import Verif.RepLemmas
import Mathlib.Data.List.Infix

/-!
# Helper lemmas on label processing
-/

namespace Lgr
open Repertoire

theorem CharObj.isPrefixOf_iff (c : CharObj) (s : Seq) : c.isPrefixOf s = true ↔ c.cp <+: s := by
  simp only [CharObj.isPrefixOf, Bool.and_eq_true, decide_eq_true_eq]
  constructor
  · rintro ⟨_, h⟩; rw [h]; exact List.take_prefix _ _
  · intro h; exact ⟨h.length_le, List.prefix_iff_eq_take.1 h⟩

namespace Repertoire

theorem getChar_iff_bucket {r : Repertoire} (h : WF r) {i : Nat} {t : Seq} {c : CharObj}
    (hc : c.cp = i :: t) : r.getChar c.cp = .ok c ↔ c ∈ r.bucket i := by
  rw [getChar_ok, lookup_eq_some h]
  constructor
  · rintro ⟨j, u, he, hb, _⟩; rw [hc] at he; cases he; exact hb
  · intro hb; exact ⟨i, t, hc, hb, rfl⟩

/-- What `get_chars_from_prefix` returns, in terms of `get_char`. -/
theorem charsFromPrefix_ok {r : Repertoire} (h : WF r) {cp : Nat} {cs : List CharObj}
    (he : r.charsFromPrefix cp = .ok cs) :
    (∀ c, c ∈ cs ↔ r.getChar c.cp = .ok c ∧ ∃ t, c.cp = cp :: t) ∧
    cs.Pairwise (fun a b => b.len ≤ a.len) ∧ (cs.map CharObj.cp).Nodup := by
  unfold charsFromPrefix at he
  cases hd : dget r.dict cp with
  | none => simp [hd] at he
  | some l =>
    simp [hd] at he
    subst he
    refine ⟨fun c => ?_, sortDesc_sorted _ _, ?_⟩
    · rw [mem_sortDesc]
      constructor
      · intro hc
        obtain ⟨t, ht⟩ := h.filed _ (mem_of_dget hd) c hc
        exact ⟨(getChar_iff_bucket h ht).2 (by simpa [bucket, hd] using hc), t, ht⟩
      · rintro ⟨hg, t, ht⟩
        simpa [bucket, hd] using (getChar_iff_bucket h ht).1 hg
    · exact ((sortDesc_perm CharObj.len l).map _).nodup_iff.2 (h.uniq _ (mem_of_dget hd))

theorem charsFromPrefix_error {r : Repertoire} (h : WF r) {cp : Nat} {e : Err}
    (he : r.charsFromPrefix cp = .error e) {c : CharObj} (hg : r.getChar c.cp = .ok c) :
    ¬ ∃ t, c.cp = cp :: t := by
  rintro ⟨t, ht⟩
  have := (getChar_iff_bucket h ht).1 hg
  unfold charsFromPrefix at he
  cases hd : dget r.dict cp with
  | none => simp [bucket, hd] at this
  | some l => simp [hd] at he

theorem getChar_ne_nil {r : Repertoire} {c : CharObj} (hg : r.getChar c.cp = .ok c) : c.cp ≠ [] := by
  intro h; rw [h] at hg; simp [getChar] at hg

end Repertoire

namespace Env
variable {env : Env}

/-- `pickChar` on characters all starting with the current code point. -/
theorem pickChar_spec {label : Seq} {i : Nat} {x : Nat} {xs : Seq} (cs : List CharObj)
    (hx : ∀ c ∈ cs, ∃ t, c.cp = x :: t) :
    (∀ c p, env.pickChar label i (x :: xs) cs = .ok (some c, p) →
      ∃ pre post, cs = pre ++ c :: post ∧ c.cp <+: x :: xs ∧ env.testChar c label i = .ok true ∧
        ∀ d ∈ pre, d.cp <+: x :: xs → env.testChar d label i = .ok false) ∧
    (∀ p, env.pickChar label i (x :: xs) cs = .ok (none, p) →
      (∀ d ∈ cs, d.cp <+: x :: xs → env.testChar d label i = .ok false) ∧
      p = (cs.filter (fun d => d.isPrefixOf (x :: xs))).filterMap
            (fun d => d.attrs.whenR.or d.attrs.notWhenR)) ∧
    (∀ e, env.pickChar label i (x :: xs) cs = .error e →
      ∃ d ∈ cs, d.cp <+: x :: xs ∧ env.testChar d label i = .error e) := by
  induction cs with
  | nil => simp [pickChar]
  | cons d cs ih =>
    have ih := ih (fun c hc => hx c (List.mem_cons_of_mem _ hc))
    have hskip : (d.isSequence && !d.isPrefixOf (x :: xs)) = true ↔ ¬ d.cp <+: x :: xs := by
      rw [← CharObj.isPrefixOf_iff]
      obtain ⟨t, ht⟩ := hx d List.mem_cons_self
      constructor
      · intro h; simp at h; simp [h.2]
      · intro h
        simp only [Bool.not_eq_true] at h
        simp only [h, Bool.not_false, Bool.and_true]
        cases t with
        | nil =>
          have : d.isPrefixOf (x :: xs) = true := by
            rw [CharObj.isPrefixOf_iff, ht]; exact ⟨xs, rfl⟩
          simp [this] at h
        | cons y t => simp [CharObj.isSequence, ht]
    unfold pickChar
    by_cases hp : d.cp <+: x :: xs
    · rw [if_neg (fun h => hskip.1 h hp)]
      have hp' := (CharObj.isPrefixOf_iff d (x :: xs)).2 hp
      cases ht : env.testChar d label i with
      | error e =>
        simp only [reduceCtorEq, false_imp_iff, implies_true, true_and, Except.error.injEq]
        rintro e' rfl
        exact ⟨d, List.mem_cons_self, hp, ht⟩
      | ok b =>
        cases b with
        | true =>
          simp only [reduceCtorEq, false_imp_iff, implies_true, and_true, Except.ok.injEq, Prod.mk.injEq,
            Option.some.injEq, and_imp, false_and]
          rintro c p rfl _
          exact ⟨[], cs, rfl, hp, ht, by simp⟩
        | false =>
          cases hr : env.pickChar label i (x :: xs) cs with
          | error e =>
            simp only [reduceCtorEq, false_imp_iff, implies_true, true_and, Except.error.injEq]
            rintro e' rfl
            obtain ⟨d', hd', h⟩ := ih.2.2 _ hr
            exact ⟨d', List.mem_cons_of_mem _ hd', h⟩
          | ok q =>
            obtain ⟨q, pend⟩ := q
            refine ⟨?_, ?_, by simp⟩
            · intro c p he
              simp at he
              obtain ⟨rfl, _⟩ := he
              obtain ⟨pre, post, h1, h2, h3, h4⟩ := ih.1 c pend hr
              refine ⟨d :: pre, post, by simp [h1], h2, h3, ?_⟩
              intro d' hd'
              rcases List.mem_cons.1 hd' with rfl | hd'
              · intro _; exact ht
              · exact h4 d' hd'
            · intro p he
              simp at he
              obtain ⟨rfl, rfl⟩ := he
              obtain ⟨h1, h2⟩ := ih.2.1 pend hr
              refine ⟨?_, ?_⟩
              · intro d' hd'
                rcases List.mem_cons.1 hd' with rfl | hd'
                · intro _; exact ht
                · exact h1 d' hd'
              · have : (d :: cs).filter (fun d => d.isPrefixOf (x :: xs)) =
                    d :: cs.filter (fun d => d.isPrefixOf (x :: xs)) := by simp [hp']
                rw [this, h2, List.filterMap_cons]
                cases d.attrs.whenR.or d.attrs.notWhenR <;> rfl
    · rw [if_pos (hskip.2 hp)]
      have hp' : d.isPrefixOf (x :: xs) = false := by
        rw [Bool.eq_false_iff, Ne, CharObj.isPrefixOf_iff]; exact hp
      refine ⟨?_, ?_, ?_⟩
      · intro c p he
        obtain ⟨pre, post, h1, h2, h3, h4⟩ := ih.1 c p he
        refine ⟨d :: pre, post, by simp [h1], h2, h3, ?_⟩
        intro d' hd'
        rcases List.mem_cons.1 hd' with rfl | hd'
        · intro h; exact absurd h hp
        · exact h4 d' hd'
      · intro p he
        obtain ⟨h1, h2⟩ := ih.2.1 p he
        refine ⟨?_, by simp [hp', h2]⟩
        intro d' hd'
        rcases List.mem_cons.1 hd' with rfl | hd'
        · intro h; exact absurd h hp
        · exact h1 d' hd'
      · intro e he
        obtain ⟨d', hd', h⟩ := ih.2.2 e he
        exact ⟨d', List.mem_cons_of_mem _ hd', h⟩

end Env
end Lgr

import Verif.Props.DocData
import Verif.Props.MetaHistory

/-!
# C104: what the parser has read from a meta section can be written
-/

namespace Lgr.Props.C104
open Lgr Xml Text MetaXml C99

/-- An element of `<meta>` whose texts are read as XML characters, not empty; a description without carriage
return, and without the end of a CDATA section unless it is plain text; references without empty comment
and, when forced, without empty identifier. -/
structure MElemOk (x : MetaXml.Ctx) (force : Bool) (e : MElem) : Prop where
  attrs : AttrsOk e.attrs
  text : ∀ v, readText x e.text = some v → Full v
  desc : e.tag = "description" → ∀ v, readText x e.text = some v → '\r' ∉ crlf v.toList ∧
    (dget e.attrs "type" = none ∨ dget e.attrs "type" = some "text/plain" ∨ ¬ [']', ']', '>'] <:+: crlf v.toList)
  refs : ∀ r ∈ e.refs, AttrsOk r.1 ∧ (∀ v, readText x r.2 = some v → Full v) ∧ dget r.1 "comment" ≠ some "" ∧
    (force = true → dget r.1 "id" ≠ some "")

theorem crlf_ok : ∀ s : List Char, s.all xmlChar = true → (crlf s).all xmlChar = true
  | [], _ => rfl
  | [c], h => by simpa [crlf] using h
  | c :: d :: s, h => by
    rw [crlf]
    simp only [List.all_cons, Bool.and_eq_true] at h
    split
    · simp only [List.all_cons, Bool.and_eq_true]
      exact ⟨by decide, crlf_ok s h.2.2⟩
    · have := crlf_ok (d :: s) (by simp only [List.all_cons, Bool.and_eq_true]; exact h.2)
      simp only [List.all_cons, Bool.and_eq_true]
      exact ⟨h.1, this⟩

theorem crlf_ne {s : List Char} (h : s ≠ []) : crlf s ≠ [] := by
  match s, h with
  | [c], _ => simp [crlf]
  | c :: d :: s, _ =>
    rw [crlf]
    split <;> simp

theorem crlf_full {v : String} (h : Full v) : Full (String.ofList (crlf v.toList)) := by
  refine ⟨fun he => ?_, ?_⟩
  · refine crlf_ne (s := v.toList) (fun h0 => h.1 ?_) ?_
    · rw [← String.ofList_toList (s := v), h0]
    · rw [← String.toList_ofList (l := crlf v.toList), he]; rfl
  · unfold xmlOk
    rw [String.toList_ofList]
    exact crlf_ok _ h.2

theorem date_same {x : MetaXml.Ctx} {s r : String} {force : Bool} (h : date x s force = .ok r) : r = s := by
  unfold date at h
  split at h
  · cases h
  · rename_i t ht
    have : t = s.toList := by
      unfold Metadata.validateDate at ht
      dsimp only at ht
      have hb : ∀ {u : List Char}, (if force = true then Except.ok s.toList else
          (.error (.format "INVALID_DATE_TAG") : Except Err (List Char))) = .ok u → u = s.toList := by
        intro u hu
        split at hu
        · cases hu; rfl
        · cases hu
      split at ht
      · split at ht
        · split at ht
          · split at ht
            · cases ht; rfl
            · exact hb ht
          · exact hb ht
          · cases ht
        · exact hb ht
      · exact hb ht
    cases h
    rw [this]
    exact String.ofList_toList

/-- Metadata that can be written, and whose references have identifiers when forced. -/
structure MGood (x : MetaXml.Ctx) (force : Bool) (m : Meta) : Prop where
  writable : Writable x force m
  ids : force = true → (dget m.refs "").isSome = false

variable {x : MetaXml.Ctx} {force : Bool}

theorem idStr_ne (n : Int) : RefManager.idStr n ≠ "" := by
  intro h
  have h1 : (RefManager.idStr n).toList = [] := by rw [h]; rfl
  unfold RefManager.idStr intStr at h1
  rw [String.toList_ofList] at h1
  split at h1
  · cases h1
  · unfold decStr at h1
    rw [List.map_eq_nil_iff] at h1
    rw [digitsOf.eq_def] at h1
    split at h1
    · simp at h1
    · rename_i h0
      simp only [List.reverse_eq_nil_iff] at h1
      exact Nat.digits_ne_nil_iff_ne_zero.2 h0 h1

theorem mgood_ref {s s' : MState} {r : XAttrs × XText} (h : MGood x force s.md)
    (ha : AttrsOk r.1 ∧ (∀ v, readText x r.2 = some v → Full v) ∧ dget r.1 "comment" ≠ some "" ∧
      (force = true → dget r.1 "id" ≠ some "")) (hp : parseRef x s r = (s', .ok ())) : MGood x force s'.md := by
  obtain ⟨h1, h2, h3, h4⟩ := ha
  unfold parseRef at hp
  have hfit : Fits ⟨readText x r.2, dget r.1 "comment"⟩ := ⟨h2, fun n hn => dget_ok h1 hn⟩
  have add : ∀ j k, refIdOk j.toList = true → (force = true → j ≠ "") → MGood x force
      { s.md with refs := dset s.md.refs j ⟨readText x r.2, dget r.1 "comment"⟩, nextId := k } := by
    intro j k hj hne
    refine ⟨{ h.writable with ids := dset_nodup h.writable.ids _ _, refs := ?_ }, fun hf => ?_⟩
    · intro p hp
      rcases mem_dset hp with rfl | hp
      · exact ⟨hj, xmlOk_id hj, hfit, h3⟩
      · exact h.writable.refs p hp
    · dsimp only
      rw [dget_dset, if_neg (hne hf)]
      exact h.ids hf
  unfold MetaXml.addReference at hp
  cases hi : dget r.1 "id" with
  | none =>
    rw [hi] at hp
    simp only [Prod.mk.injEq] at hp
    rw [← hp.1]
    exact add _ _ (refIdOk_idStr _) (fun _ => idStr_ne _)
  | some i =>
    rw [hi] at hp
    dsimp only at hp
    split at hp
    · simp at hp
    · split at hp
      · simp at hp
      · rename_i hri
        simp only [Prod.mk.injEq] at hp
        rw [← hp.1]
        exact add _ _ (by simpa using hri) (fun hf he => h4 hf (by rw [hi, he]))

theorem mgood_refs : ∀ (rs : List (XAttrs × XText)) {s s' : MState}, MGood x force s.md →
    (∀ r ∈ rs, AttrsOk r.1 ∧ (∀ v, readText x r.2 = some v → Full v) ∧ dget r.1 "comment" ≠ some "" ∧
      (force = true → dget r.1 "id" ≠ some "")) → forEach (parseRef x) s rs = (s', .ok ()) → MGood x force s'.md
  | [], s, s', h, _, hf => by
    simp only [forEach, Prod.mk.injEq] at hf
    rw [← hf.1]; exact h
  | r :: rs, s, s', h, ha, hf => by
    simp only [forEach] at hf
    cases hp : parseRef x s r with
    | mk s1 o =>
      rw [hp] at hf
      cases o with
      | error e => simp at hf
      | ok u =>
        exact mgood_refs rs (mgood_ref h (ha r (by simp)) hp) (fun b hb => ha b (List.mem_cons_of_mem _ hb)) hf

theorem mgood_elem {s s' : MState} {e : MElem} (h : MGood x force s.md) (ha : MElemOk x force e)
    (hp : parseMetaElem x force s e = (s', .ok ())) : MGood x force s'.md := by
  unfold parseMetaElem at hp
  dsimp only at hp
  by_cases h1 : e.tag = "date" ∨ e.tag = "validity-start" ∨ e.tag = "validity-end"
  · rw [if_pos h1] at hp
    unfold parseDate at hp
    cases ht : readText x e.text with
    | none => rw [ht] at hp; simp at hp
    | some t =>
      rw [ht] at hp
      dsimp only at hp
      unfold setDate at hp
      cases hd : date x t force with
      | error er => rw [hd] at hp; simp at hp
      | ok d =>
        obtain rfl := date_same hd
        rw [hd] at hp
        have hok : DateOk x force (some d) := fun t' ht' => by cases ht'; exact ⟨ha.text _ ht, hd⟩
        dsimp only at hp
        split at hp
        · simp only [Prod.mk.injEq] at hp
          rw [← hp.1]
          exact ⟨{ h.writable with dates := ⟨hok, h.writable.dates.2⟩ }, h.ids⟩
        · split at hp
          · simp only [Prod.mk.injEq] at hp
            rw [← hp.1]
            exact ⟨{ h.writable with dates := ⟨h.writable.dates.1, hok, h.writable.dates.2.2⟩ }, h.ids⟩
          · simp only [Prod.mk.injEq] at hp
            rw [← hp.1]
            exact ⟨{ h.writable with dates := ⟨h.writable.dates.1, h.writable.dates.2.1, hok⟩ }, h.ids⟩
  rw [if_neg h1] at hp
  by_cases h2 : e.tag = "unicode-version"
  · rw [if_pos h2] at hp
    cases ht : readText x e.text with
    | none => rw [ht] at hp; simp at hp
    | some t =>
      rw [ht] at hp
      dsimp only at hp
      unfold setUnicodeVersion at hp
      by_cases hv : versionMatch x.digit t.toList = false
      · rw [if_pos hv] at hp
        by_cases hf : force = false
        · rw [if_pos hf] at hp
          simp at hp
        · rw [if_neg hf] at hp
          simp only [if_true, Prod.mk.injEq] at hp
          rw [← hp.1]
          exact ⟨{ h.writable with unicode := ⟨t, rfl, ha.text _ ht, fun h' => absurd h' hf⟩ }, h.ids⟩
      · rw [if_neg hv] at hp
        simp only [Bool.false_eq_true, if_false, Prod.mk.injEq] at hp
        rw [← hp.1]
        exact ⟨{ h.writable with unicode := ⟨t, rfl, ha.text _ ht, fun _ => by simpa using hv⟩ }, h.ids⟩
  rw [if_neg h2] at hp
  by_cases h3 : e.tag = "version"
  · rw [if_pos h3] at hp
    simp only [Prod.mk.injEq] at hp
    rw [← hp.1]
    refine ⟨{ h.writable with version := ?_ }, h.ids⟩
    intro v hv
    cases hv
    exact ⟨ha.text, fun n hn => dget_ok ha.attrs hn⟩
  rw [if_neg h3] at hp
  by_cases h4 : e.tag = "language"
  · rw [if_pos h4] at hp
    cases ht : readText x e.text with
    | none => rw [ht] at hp; simp at hp
    | some l =>
      rw [ht] at hp
      dsimp only at hp
      have hl := ha.text _ ht
      unfold parseLanguage Metadata.addLanguage at hp
      cases hc : x.check l with
      | none => rw [hc] at hp; simp at hp
      | some ok =>
        rw [hc] at hp
        dsimp only at hp
        by_cases hbad : ok = false ∧ force = false
        · rw [if_pos hbad] at hp; simp at hp
        rw [if_neg hbad] at hp
        simp only [Prod.mk.injEq] at hp
        have hW : ∀ ls, ls = (if l ∈ s.md.languages then s.md.languages else s.md.languages ++ [l]) →
            MGood x force { s.md with languages := ls } := by
          rintro _ rfl
          refine ⟨{ h.writable with languages := ?_, distinct := ?_ }, h.ids⟩
          · intro k hk
            dsimp only at hk
            split at hk
            · exact h.writable.languages k hk
            · rcases List.mem_append.1 hk with hk | hk
              · exact h.writable.languages k hk
              · rw [List.mem_singleton] at hk
                subst hk
                refine ⟨hl, ok, hc, fun hf => ?_⟩
                cases ok with
                | true => rfl
                | false => exact absurd ⟨rfl, hf⟩ hbad
          · dsimp only
            split
            · exact h.writable.distinct
            · rename_i hm
              simp only [List.nodup_append, List.mem_singleton]
              exact ⟨h.writable.distinct, by simp, fun a ha b hb => by rintro rfl; exact hm (hb ▸ ha)⟩
        rw [← hp.1]
        cases ok with
        | true => exact hW _ rfl
        | false =>
          cases force with
          | false => exact absurd ⟨rfl, rfl⟩ hbad
          | true => exact hW _ rfl
  rw [if_neg h4] at hp
  by_cases h5 : e.tag = "scope"
  · rw [if_pos h5] at hp
    simp only [Prod.mk.injEq] at hp
    rw [← hp.1]
    refine ⟨{ h.writable with scopes := ?_ }, h.ids⟩
    intro t ht
    rcases List.mem_append.1 ht with ht | ht
    · exact h.writable.scopes t ht
    · rw [List.mem_singleton] at ht
      subst ht
      exact ⟨ha.text, fun n hn => dget_ok ha.attrs hn⟩
  rw [if_neg h5] at hp
  by_cases h6 : e.tag = "description"
  · rw [if_pos h6] at hp
    cases ht : readText x e.text with
    | none => rw [ht] at hp; simp at hp
    | some t =>
      rw [ht] at hp
      simp only [Prod.mk.injEq] at hp
      rw [← hp.1]
      refine ⟨{ h.writable with description := ?_ }, h.ids⟩
      intro d hd
      cases hd
      obtain ⟨d1, d2⟩ := ha.desc h6 t ht
      refine ⟨⟨fun v hv => by cases hv; exact crlf_full (ha.text _ ht), fun n hn => dget_ok ha.attrs hn⟩,
        _, rfl, by rw [String.toList_ofList]; exact d1, by rw [String.toList_ofList]; exact d2⟩
  rw [if_neg h6] at hp
  by_cases h7 : e.tag = "references"
  · rw [if_pos h7] at hp
    exact mgood_refs e.refs h ha.refs hp
  · rw [if_neg h7] at hp
    simp only [Prod.mk.injEq] at hp
    rw [← hp.1]
    exact h

theorem mgood_elems : ∀ (es : List MElem) {s s' : MState}, MGood x force s.md →
    (∀ e ∈ es, MElemOk x force e) → forEach (parseMetaElem x force) s es = (s', .ok ()) → MGood x force s'.md
  | [], s, s', h, _, hf => by
    simp only [forEach, Prod.mk.injEq] at hf
    rw [← hf.1]; exact h
  | r :: rs, s, s', h, ha, hf => by
    simp only [forEach] at hf
    cases hp : parseMetaElem x force s r with
    | mk s1 o =>
      rw [hp] at hf
      cases o with
      | error e => simp at hf
      | ok u =>
        exact mgood_elems rs (mgood_elem h (ha r (by simp)) hp) (fun b hb => ha b (List.mem_cons_of_mem _ hb)) hf

/-- Whatever the parser reads from a meta section, without raising, can be written and read again. -/
theorem mgood_meta (hx : Sound x) {checks : Rfc7940.Results} {es : List MElem} {s' : MState}
    (ha : ∀ e ∈ es, MElemOk x force e) (h : parseMeta x force checks es = (s', .ok ())) : MGood x force s'.md := by
  unfold parseMeta at h
  cases hf : forEach (parseMetaElem x force) { checks := checks } es with
  | mk s1 o =>
    rw [hf] at h
    cases o with
    | error e => simp at h
    | ok u =>
      simp only [Prod.mk.injEq] at h
      rw [← h.1]
      have := mgood_elems es (s := { checks := checks })
        ⟨writable_run hx force [] (by simp), fun _ => rfl⟩ ha hf
      exact this

end Lgr.Props.C104

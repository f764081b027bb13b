import Verif.Rfc7940Tool
import Verif.Props.ChecksRfc
import Verif.Props.Validate
import Verif.Props.DocXml
import Verif.Props.Rfc7940

/-!
# C125: what `rfc7940_validate` writes
-/

namespace Lgr.Props.C125
open Lgr Rfc7940 Validate Checks DocXml Rfc7940Tool C52

/-! ## The log -/

/-- The verdict as it is written. -/
def word : Verdict → String
  | .pass => "PASS"
  | .warn => "WARN"
  | .fail => "FAIL"

/-- The line of a test: `what` it checks, its policy `p`, and its result. -/
def line (what p : String) : Option Bool → String
  | none => "ERROR: " ++ what ++ " - NOT EXECUTED\n"
  | some true => "PASS: " ++ what ++ " - OK\n"
  | some false =>
    if p = "IGNORE" then "IGNORE: " ++ what ++ " - NOK\n"
    else if p = "WARNING" then "WARNING: " ++ what ++ " - NOK\n"
    else "ERROR: " ++ what ++ " - NOK\n"

/-- The lines of the tests of a policy. -/
def lines (r : Results) (pol : List (String × String)) : List String :=
  pol.map (fun q => line ((dget descriptions q.1).getD q.1) q.2 (dget r q.1))

/-- All lines, one after the other. -/
def text (l : List String) : String := l.foldr (· ++ ·) ""

theorem step_flags (r : Results) (v : Bool) (g : Log) (q : String × String) :
    ((logStep r v g q).err, (logStep r v g q).warn) = policyLoop r [q] (g.err, g.warn) := by
  obtain ⟨t, p⟩ := q
  unfold logStep policyLoop Log.add
  dsimp only
  cases hd : dget r t with
  | none => cases v <;> simp [policyLoop]
  | some b =>
    cases b with
    | true => cases v <;> simp [policyLoop]
    | false =>
      by_cases h1 : p = "IGNORE"
      · cases v <;> simp [h1, policyLoop]
      · by_cases h2 : p = "WARNING"
        · cases v <;> simp [h2, policyLoop]
        · cases v <;> simp [h1, h2, policyLoop]

theorem policyLoop_cons (r : Results) (q : String × String) (pol : List (String × String)) (s : Bool × Bool) :
    policyLoop r (q :: pol) s = policyLoop r pol (policyLoop r [q] s) := by
  obtain ⟨t, p⟩ := q
  obtain ⟨e, w⟩ := s
  simp only [policyLoop]
  cases dget r t with
  | none => rfl
  | some b =>
    cases b with
    | true => rfl
    | false =>
      dsimp only
      split
      · rfl
      · split <;> rfl

theorem loop_flags (r : Results) (v : Bool) : ∀ (pol : List (String × String)) (g : Log),
    ((pol.foldl (logStep r v) g).err, (pol.foldl (logStep r v) g).warn) = policyLoop r pol (g.err, g.warn)
  | [], g => rfl
  | q :: pol, g => by
    rw [List.foldl_cons, loop_flags r v pol, step_flags]
    exact (policyLoop_cons r q pol _).symm

theorem step_info (r : Results) (v : Bool) (g : Log) (q : String × String) :
    (logStep r v g q).info = g.info ++ if v then line ((dget descriptions q.1).getD q.1) q.2 (dget r q.1) else "" := by
  unfold logStep Log.add line
  dsimp only
  cases hd : dget r q.1 with
  | none => cases v <;> simp
  | some b =>
    cases b with
    | true => cases v <;> simp
    | false =>
      by_cases h1 : q.2 = "IGNORE"
      · cases v <;> simp [h1]
      · by_cases h2 : q.2 = "WARNING"
        · cases v <;> simp [h2]
        · cases v <;> simp [h1, h2]

theorem loop_info (r : Results) (v : Bool) : ∀ (pol : List (String × String)) (g : Log),
    (pol.foldl (logStep r v) g).info = g.info ++ if v then text (lines r pol) else ""
  | [], g => by cases v <;> simp [lines, text]
  | q :: pol, g => by
    rw [List.foldl_cons, loop_info r v pol, step_info]
    cases v <;> simp [lines, text, String.append_assoc]

/-- **C125** The text of a result: with `verbose` a line for each test of the policy, in its order, then the verdict;
without, the verdict alone, which is the same. -/
theorem text_exact (r : Results) (pol : List (String × String)) (v : Bool) :
    finalText r pol v =
      (if v then text (lines r pol) ++ "Validation result: " else "") ++ word (finalResult r (some pol)) := by
  have hi := loop_info r v pol {}
  have hf := loop_flags r v pol {}
  unfold finalText
  dsimp only
  simp only [finalResult]
  rw [show (({} : Log).err, ({} : Log).warn) = (false, false) from rfl] at hf
  rw [← hf]
  generalize pol.foldl (logStep r v) {} = g at hi
  obtain ⟨i, e, w⟩ := g
  simp only at hi
  subst hi
  cases v <;> cases e <;> cases w <;> simp [Log.add, word]

/-! ## The conformance results of reading a document -/

/-- The notifications of reading a child of `<meta>` that is read without exception. -/
def metaNotes (x : MetaXml.Ctx) (e : MetaXml.MElem) : List Note :=
  if e.tag = "date" ∨ e.tag = "validity-start" ∨ e.tag = "validity-end" then []
  else if e.tag = "unicode-version" then
    match MetaXml.readText x e.text with
    | none => []
    | some t => if MetaXml.versionMatch x.digit t.toList = false then [.error "valid_unicode_version"] else []
  else if e.tag = "version" then []
  else if e.tag = "language" then
    match MetaXml.readText x e.text with
    | none => []
    | some l => if x.check l = some true then [.tested "metadata_language"]
      else [.error "metadata_language", .tested "metadata_language"]
  else if e.tag = "scope" then []
  else if e.tag = "description" then []
  else if e.tag = "references" then []
  else [.error "parse_xml"]

theorem ref_checks (x : MetaXml.Ctx) (s : MetaXml.MState) (r : Xml.XAttrs × MetaXml.XText) :
    (MetaXml.parseRef x s r).1.checks = s.checks := by
  unfold MetaXml.parseRef; rfl

theorem refs_checks (x : MetaXml.Ctx) : ∀ (rs : List (Xml.XAttrs × MetaXml.XText)) (s : MetaXml.MState),
    (forEach (MetaXml.parseRef x) s rs).1.checks = s.checks
  | [], s => rfl
  | r :: rs, s => by
    rw [forEach]
    cases hp : MetaXml.parseRef x s r with
    | mk s1 o =>
      have h1 := ref_checks x s r
      rw [hp] at h1
      cases o with
      | error e => exact h1
      | ok u => exact (refs_checks x rs s1).trans h1

theorem meta_checks {x : MetaXml.Ctx} {s s' : MetaXml.MState} {e : MetaXml.MElem}
    (h : MetaXml.parseMetaElem x true s e = (s', .ok ())) : s'.checks = recorded s.checks (metaNotes x e) := by
  unfold MetaXml.parseMetaElem at h
  unfold metaNotes
  dsimp only at h
  split
  · rename_i h1
    rw [if_pos h1] at h
    unfold MetaXml.parseDate at h
    split at h
    · simp at h
    · simp only [Prod.mk.injEq] at h
      rw [← h.1]; rfl
  rename_i h1
  rw [if_neg h1] at h
  split
  · rename_i h2
    rw [if_pos h2] at h
    cases ht : MetaXml.readText x e.text with
    | none => rw [ht] at h; simp at h
    | some t =>
      rw [ht] at h
      dsimp only at h ⊢
      unfold MetaXml.setUnicodeVersion at h
      by_cases hv : MetaXml.versionMatch x.digit t.toList = false
      · simp only [hv, if_true, Bool.true_eq_false, if_false, Prod.mk.injEq] at h ⊢
        rw [← h.1]; rfl
      · rw [if_neg hv] at h
        simp only [Bool.false_eq_true, if_false, Prod.mk.injEq] at h
        rw [if_neg hv, ← h.1]; rfl
  rename_i h2
  rw [if_neg h2] at h
  split
  · rename_i h3
    rw [if_pos h3] at h
    simp only [Prod.mk.injEq] at h
    rw [← h.1]; rfl
  rename_i h3
  rw [if_neg h3] at h
  split
  · rename_i h4
    rw [if_pos h4] at h
    cases ht : MetaXml.readText x e.text with
    | none => rw [ht] at h; simp at h
    | some l =>
      rw [ht] at h
      dsimp only at h ⊢
      unfold MetaXml.parseLanguage at h
      cases hc : x.check l with
      | none =>
        unfold Metadata.addLanguage at h
        simp [hc] at h
      | some b =>
        cases b with
        | true =>
          simp only [hc] at h
          split at h
          · simp only [Prod.mk.injEq] at h
            rw [← h.1]; rfl
          · simp at h
        | false =>
          simp only [hc, if_true] at h
          split at h
          · simp only [Prod.mk.injEq] at h
            rw [← h.1]; rfl
          · simp at h
  rename_i h4
  rw [if_neg h4] at h
  split
  · rename_i h5
    rw [if_pos h5] at h
    simp only [Prod.mk.injEq] at h
    rw [← h.1]; rfl
  rename_i h5
  rw [if_neg h5] at h
  split
  · rename_i h6
    rw [if_pos h6] at h
    split at h
    · simp at h
    · simp only [Prod.mk.injEq] at h
      rw [← h.1]; rfl
  rename_i h6
  rw [if_neg h6] at h
  split
  · rename_i h7
    rw [if_pos h7] at h
    have := refs_checks x e.refs s
    rw [h] at this
    exact this
  · rename_i h7
    rw [if_neg h7] at h
    simp only [Prod.mk.injEq] at h
    rw [← h.1]; rfl

theorem recorded_append (r : Results) (ns ms : List Note) : recorded r (ns ++ ms) = recorded (recorded r ns) ms := by
  simp [recorded]

theorem metas_checks {x : MetaXml.Ctx} : ∀ (es : List MetaXml.MElem) {s s' : MetaXml.MState},
    forEach (MetaXml.parseMetaElem x true) s es = (s', .ok ()) → s'.checks = recorded s.checks (es.flatMap (metaNotes x))
  | [], s, s', h => by
    simp only [forEach, Prod.mk.injEq] at h
    rw [← h.1]; rfl
  | e :: es, s, s', h => by
    rw [forEach] at h
    cases hp : MetaXml.parseMetaElem x true s e with
    | mk s1 o =>
      rw [hp] at h
      cases o with
      | error er => simp at h
      | ok u =>
        rw [List.flatMap_cons, recorded_append, ← meta_checks hp]
        exact metas_checks es h

/-- The section `<meta>`. -/
theorem metaSection_checks {x : MetaXml.Ctx} {cs : Results} {es : List MetaXml.MElem} {s' : MetaXml.MState}
    (h : MetaXml.parseMeta x true cs es = (s', .ok ())) :
    s'.checks = recorded cs (es.flatMap (metaNotes x) ++
      [if s'.found then .tested "explicit_unicode_version" else .error "explicit_unicode_version"]) := by
  unfold MetaXml.parseMeta at h
  cases hf : forEach (MetaXml.parseMetaElem x true) { checks := cs } es with
  | mk s o =>
    rw [hf] at h
    cases o with
    | error e => simp at h
    | ok u =>
      simp only [Prod.mk.injEq] at h
      rw [← h.1, recorded_append, ← metas_checks es hf]
      cases hs : s.found <;> simp [MetaXml.MState.note, recorded, Note.apply, hs]

/-- The LGR raises when an element is added: an `LGRException`. -/
def Raises (r : LGR × Except Err Unit) : Prop := ∃ e, r.2 = .error e

/-- The code points of the characters of a data section, in its order. -/
def charCps : List Xml.Elem → List Seq
  | [] => []
  | e :: es =>
    if e.tag = "char" then
      match Xml.getCp e.attrs with
      | .ok cp => cp :: charCps es
      | .error _ => charCps es
    else charCps es

/-- An element, or one of its variants, is refused when added to the LGR read so far. -/
def ElemRefused (db : UniDb) (s : Xml.PState) (e : Xml.Elem) : Prop :=
  (e.tag = "char" ∧ ∃ cp, Xml.getCp e.attrs = .ok cp ∧
    (Raises (s.lgr.addCp db (.seq cp) (Xml.optsOf true e.attrs)) ∨
      ∃ pre a post v, e.vars = pre ++ a :: post ∧ Xml.getCp a = .ok v ∧
        Raises ((forEach (Xml.parseVar db true cp)
          { s with lgr := (s.lgr.addCp db (.seq cp) (Xml.optsOf true e.attrs)).1 } pre).1.lgr.addVariant db (.seq cp)
            (.seq v) (dget a "type") (Xml.varOptsOf true a)))) ∨
  (e.tag = "range" ∧ ∃ f l, Xml.getHex e.attrs "first-cp" = .ok f ∧ Xml.getHex e.attrs "last-cp" = .ok l ∧
    Raises (s.lgr.addRange db f l (Xml.optsOf true e.attrs)))

/-- `guard` with `force`, when it lets pass. -/
theorem guard_force {s s' : Xml.PState} {r : LGR × Except Err Unit} (h : Xml.guard true s r = (s', .ok ())) :
    s'.lgr = r.1 ∧ s'.prev = s.prev ∧ ∃ ns, s'.checks = recorded s.checks ns ∧
      (∀ t, .error t ∈ ns ↔ (t = "parse_xml" ∨ t = "codepoint_valid") ∧ Raises r) ∧ ∀ t, .tested t ∉ ns := by
  obtain ⟨g, o⟩ := r
  cases o with
  | ok u =>
    simp only [Xml.guard, Prod.mk.injEq] at h
    rw [← h.1]
    exact ⟨rfl, rfl, [], rfl, by simp [Raises], by simp⟩
  | error e =>
    simp only [Xml.guard] at h
    split at h
    · simp only [if_true, Prod.mk.injEq] at h
      rw [← h.1]
      exact ⟨rfl, rfl, [.error "parse_xml", .error "codepoint_valid"], rfl, by simp [Raises], by simp⟩
    · simp at h

/-- What a stretch of reading the data notes: `refused` that an element was refused. -/
structure DNotes (cs cs' : Results) (order : List String) (refused : Prop) : Prop where
  ex : ∃ ns : List Note, cs' = recorded cs ns ∧
    (∀ t, .error t ∈ ns ↔ t ∈ order ∨ (t = "parse_xml" ∨ t = "codepoint_valid") ∧ refused) ∧ ∀ t, .tested t ∉ ns

theorem DNotes.trans {a b c : Results} {o o' : List String} {p q : Prop} (h : DNotes a b o p) (h' : DNotes b c o' q) :
    DNotes a c (o ++ o') (p ∨ q) := by
  obtain ⟨ns, h1, h2, h3⟩ := h.ex
  obtain ⟨ms, k1, k2, k3⟩ := h'.ex
  refine ⟨ns ++ ms, by rw [recorded_append, ← h1, k1], fun t => ?_, fun t => ?_⟩
  · rw [List.mem_append, h2, k2, List.mem_append]; tauto
  · rw [List.mem_append]; exact not_or.2 ⟨h3 t, k3 t⟩

theorem DNotes.congr {a b : Results} {o o' : List String} {p q : Prop} (h : DNotes a b o p) (ho : ∀ t, t ∈ o ↔ t ∈ o')
    (hp : p ↔ q) : DNotes a b o' q := by
  obtain ⟨ns, h1, h2, h3⟩ := h.ex
  exact ⟨ns, h1, fun t => by rw [h2, ho, hp], h3⟩

/-- A loop whose effect on a part of the state depends on that part only. -/
theorem forEach_part {σ τ α : Type} {f : σ → α → σ × Except Err Unit} {π : σ → τ}
    (hf : ∀ s t a, π s = π t → π (f s a).1 = π (f t a).1 ∧ (f s a).2 = (f t a).2) :
    ∀ (l : List α) (s t : σ), π s = π t →
      π (forEach f s l).1 = π (forEach f t l).1 ∧ (forEach f s l).2 = (forEach f t l).2
  | [], s, t, h => ⟨h, rfl⟩
  | a :: l, s, t, h => by
    obtain ⟨h1, h2⟩ := hf s t a h
    rw [forEach, forEach]
    generalize f s a = u at h1 h2
    generalize f t a = v at h1 h2
    obtain ⟨s1, o⟩ := u
    obtain ⟨t1, o'⟩ := v
    dsimp only at h1 h2
    subst h2
    cases o with
    | error e => exact ⟨h1, rfl⟩
    | ok u => exact forEach_part hf l s1 t1 h1

theorem guard_part (s t : Xml.PState) (r : LGR × Except Err Unit) :
    (Xml.guard true s r).1.lgr = (Xml.guard true t r).1.lgr ∧ (Xml.guard true s r).2 = (Xml.guard true t r).2 := by
  obtain ⟨g, o⟩ := r
  cases o with
  | ok u => exact ⟨rfl, rfl⟩
  | error e =>
    simp only [Xml.guard]
    split <;> exact ⟨rfl, rfl⟩

theorem var_part (db : UniDb) (cp : Seq) (s t : Xml.PState) (a : Xml.XAttrs) (h : s.lgr = t.lgr) :
    (Xml.parseVar db true cp s a).1.lgr = (Xml.parseVar db true cp t a).1.lgr ∧
      (Xml.parseVar db true cp s a).2 = (Xml.parseVar db true cp t a).2 := by
  unfold Xml.parseVar
  cases hg : Xml.getCp a with
  | error e => exact ⟨h, rfl⟩
  | ok v => dsimp only; rw [h]; exact guard_part s t _

theorem elem_part (db : UniDb) (s t : Xml.PState) (e : Xml.Elem) (h : s.lgr = t.lgr) :
    (Xml.parseElem db true s e).1.lgr = (Xml.parseElem db true t e).1.lgr ∧
      (Xml.parseElem db true s e).2 = (Xml.parseElem db true t e).2 := by
  unfold Xml.parseElem
  split
  · cases hg : Xml.getCp e.attrs with
    | error er => exact ⟨h, rfl⟩
    | ok cp =>
      dsimp only
      rw [C104.orderCheck_lgr, C104.orderCheck_lgr, h]
      have := guard_part (Xml.orderCheck s cp) (Xml.orderCheck t cp)
        (t.lgr.addCp db (.seq cp) (Xml.optsOf true e.attrs))
      generalize Xml.guard true (Xml.orderCheck s cp) _ = u at this
      generalize Xml.guard true (Xml.orderCheck t cp) _ = v at this
      obtain ⟨s1, o⟩ := u
      obtain ⟨t1, o'⟩ := v
      dsimp only at this
      obtain ⟨h1, rfl⟩ := this
      cases o with
      | error er => exact ⟨h1, rfl⟩
      | ok u => exact forEach_part (π := Xml.PState.lgr) (fun s t a h => var_part db cp s t a h) e.vars s1 t1 h1
  · split
    · cases hf : Xml.getHex e.attrs "first-cp" with
      | error er => exact ⟨h, rfl⟩
      | ok f =>
        cases hl : Xml.getHex e.attrs "last-cp" with
        | error er => exact ⟨h, rfl⟩
        | ok l => dsimp only; rw [h]; exact guard_part s t _
    · exact ⟨h, rfl⟩

/-- Whatever `prev` and the checks, the LGR read from variants is the same. -/
theorem vars_lgr (db : UniDb) (cp : Seq) (vs : List Xml.XAttrs) (s t : Xml.PState) (h : s.lgr = t.lgr) :
    (forEach (Xml.parseVar db true cp) s vs).1.lgr = (forEach (Xml.parseVar db true cp) t vs).1.lgr :=
  (forEach_part (π := Xml.PState.lgr) (fun s t a h => var_part db cp s t a h) vs s t h).1

theorem var_notes {db : UniDb} {cp : Seq} {s s' : Xml.PState} {a : Xml.XAttrs}
    (h : Xml.parseVar db true cp s a = (s', .ok ())) :
    s'.prev = s.prev ∧ DNotes s.checks s'.checks [] (∃ v, Xml.getCp a = .ok v ∧
      Raises (s.lgr.addVariant db (.seq cp) (.seq v) (dget a "type") (Xml.varOptsOf true a))) := by
  unfold Xml.parseVar at h
  cases hg : Xml.getCp a with
  | error e => rw [hg] at h; simp at h
  | ok v =>
    rw [hg] at h
    obtain ⟨-, h2, ns, h3, h4, h5⟩ := guard_force h
    refine ⟨h2, ns, h3, fun t => ?_, h5⟩
    rw [h4]
    simp

theorem vars_notes {db : UniDb} {cp : Seq} : ∀ (vs : List Xml.XAttrs) {s s' : Xml.PState},
    forEach (Xml.parseVar db true cp) s vs = (s', .ok ()) → s'.prev = s.prev ∧
      DNotes s.checks s'.checks [] (∃ pre a post v, vs = pre ++ a :: post ∧ Xml.getCp a = .ok v ∧
        Raises ((forEach (Xml.parseVar db true cp) s pre).1.lgr.addVariant db (.seq cp) (.seq v) (dget a "type")
          (Xml.varOptsOf true a)))
  | [], s, s', h => by
    simp only [forEach, Prod.mk.injEq] at h
    rw [← h.1]
    exact ⟨rfl, [], rfl, by simp, by simp⟩
  | a :: vs, s, s', h => by
    rw [forEach] at h
    cases hp : Xml.parseVar db true cp s a with
    | mk s1 o =>
      rw [hp] at h
      cases o with
      | error e => simp at h
      | ok u =>
        obtain ⟨i1, i2⟩ := vars_notes vs h
        obtain ⟨j1, j2⟩ := var_notes hp
        refine ⟨i1.trans j1, (j2.trans i2).congr (by simp) ?_⟩
        constructor
        · rintro (⟨v, h1, h2⟩ | ⟨pre, b, post, v, h1, h2, h3⟩)
          · exact ⟨[], a, vs, v, rfl, h1, h2⟩
          · refine ⟨a :: pre, b, post, v, by rw [h1]; rfl, h2, ?_⟩
            rw [forEach, hp]; exact h3
        · rintro ⟨pre, b, post, v, h1, h2, h3⟩
          cases pre with
          | nil =>
            simp only [List.nil_append, List.cons.injEq] at h1
            rw [← h1.1] at h2 h3
            exact .inl ⟨v, h2, h3⟩
          | cons p pre =>
            simp only [List.cons_append, List.cons.injEq] at h1
            rw [← h1.1, forEach, hp] at h3
            exact .inr ⟨pre, b, post, v, h1.2, h2, h3⟩

theorem order_notes (s : Xml.PState) (cp : Seq) :
    (Xml.orderCheck s cp).prev = cp ∧ (Xml.orderCheck s cp).lgr = s.lgr ∧
      DNotes s.checks (Xml.orderCheck s cp).checks (C34.orderNotes s.prev [cp]) False := by
  refine ⟨rfl, C104.orderCheck_lgr s cp, ?_⟩
  unfold Xml.orderCheck
  dsimp only [C34.orderNotes]
  split
  · split
    · exact ⟨[.error "char_strict_ascending_order"], rfl, by simp, by simp⟩
    · exact ⟨[.error "char_ascending_order"], rfl, by simp, by simp⟩
  · exact ⟨[], rfl, by simp, by simp⟩

/-- The order notes of an element. -/
def elemOrder (p : Seq) (e : Xml.Elem) : List String := C34.orderNotes p (charCps [e])

theorem elem_notes {db : UniDb} {s s' : Xml.PState} {e : Xml.Elem} (h : Xml.parseElem db true s e = (s', .ok ())) :
    s'.prev = (charCps [e]).getLast?.getD s.prev ∧
      DNotes s.checks s'.checks (elemOrder s.prev e) (ElemRefused db s e) := by
  unfold Xml.parseElem at h
  by_cases h1 : e.tag = "char"
  · rw [if_pos h1] at h
    cases hg : Xml.getCp e.attrs with
    | error er => rw [hg] at h; simp at h
    | ok cp =>
      rw [hg] at h
      dsimp only at h
      have hc : charCps [e] = [cp] := by simp [charCps, h1, hg]
      obtain ⟨o1, o2, o3⟩ := order_notes s cp
      cases hq : Xml.guard true (Xml.orderCheck s cp)
          ((Xml.orderCheck s cp).lgr.addCp db (.seq cp) (Xml.optsOf true e.attrs)) with
      | mk s2 o =>
        rw [hq] at h
        cases o with
        | error er => simp at h
        | ok u =>
          obtain ⟨g1, g2, ns, g3, g4, g5⟩ := guard_force hq
          obtain ⟨v1, v2⟩ := vars_notes e.vars h
          have gd : DNotes (Xml.orderCheck s cp).checks s2.checks []
              (Raises (s.lgr.addCp db (.seq cp) (Xml.optsOf true e.attrs))) :=
            ⟨ns, g3, fun t => by rw [g4, o2]; simp, g5⟩
          refine ⟨by rw [v1, g2, o1, hc]; rfl, ((o3.trans gd).trans v2).congr (fun t => ?_) ?_⟩
          · simp [elemOrder, hc]
          · unfold ElemRefused
            have hl : ∀ pre, (forEach (Xml.parseVar db true cp) s2 pre).1.lgr = (forEach (Xml.parseVar db true cp)
                { s with lgr := (s.lgr.addCp db (.seq cp) (Xml.optsOf true e.attrs)).1 } pre).1.lgr := by
              intro pre
              refine vars_lgr db cp pre _ _ ?_
              rw [g1, o2]
            simp only [false_or, h1, true_and, hg, Except.ok.injEq]
            constructor
            · rintro (k | ⟨pre, a, post, v, k1, k2, k3⟩)
              · exact .inl ⟨cp, rfl, .inl k⟩
              · exact .inl ⟨cp, rfl, .inr ⟨pre, a, post, v, k1, k2, by rw [← hl]; exact k3⟩⟩
            · rintro (⟨_, rfl, k | ⟨pre, a, post, v, k1, k2, k3⟩⟩ | ⟨k, -⟩)
              · exact .inl k
              · exact .inr ⟨pre, a, post, v, k1, k2, by rw [hl]; exact k3⟩
              · simp at k
  · rw [if_neg h1] at h
    have hc : charCps [e] = [] := by simp [charCps, h1]
    by_cases h2 : e.tag = "range"
    · rw [if_pos h2] at h
      cases hf : Xml.getHex e.attrs "first-cp" with
      | error er => rw [hf] at h; simp at h
      | ok f =>
        cases hl : Xml.getHex e.attrs "last-cp" with
        | error er => rw [hf, hl] at h; simp at h
        | ok l =>
          rw [hf, hl] at h
          dsimp only at h
          obtain ⟨g1, g2, ns, g3, g4, g5⟩ := guard_force h
          refine ⟨by rw [g2, hc]; rfl, ns, g3, fun t => ?_, g5⟩
          rw [g4]
          unfold ElemRefused elemOrder
          simp [hc, C34.orderNotes, h2, hf, hl]
    · rw [if_neg h2] at h
      simp only [Prod.mk.injEq] at h
      rw [← h.1]
      refine ⟨by rw [hc]; rfl, [], rfl, fun t => ?_, by simp⟩
      unfold ElemRefused elemOrder
      simp [hc, C34.orderNotes, h1, h2]

/-- An element of a data section is refused when the elements before it have been read. -/
def Refused (db : UniDb) (g : LGR) (es : List Xml.Elem) : Prop :=
  ∃ pre e post, es = pre ++ e :: post ∧ ElemRefused db (forEach (Xml.parseElem db true) { lgr := g } pre).1 e

theorem refused_part {db : UniDb} {s t : Xml.PState} (h : s.lgr = t.lgr) (e : Xml.Elem) :
    ElemRefused db s e ↔ ElemRefused db t e := by
  have hl : ∀ cp g pre, (forEach (Xml.parseVar db true cp) { s with lgr := g } pre).1.lgr =
      (forEach (Xml.parseVar db true cp) { t with lgr := g } pre).1.lgr :=
    fun cp g pre => vars_lgr db cp pre _ _ rfl
  unfold ElemRefused
  simp only [h, hl]

theorem charCps_cons (e : Xml.Elem) (es : List Xml.Elem) : charCps (e :: es) = charCps [e] ++ charCps es := by
  simp only [charCps]
  split
  · split <;> simp
  · simp

theorem charCps_one (e : Xml.Elem) : charCps [e] = [] ∨ ∃ k, charCps [e] = [k] := by
  simp only [charCps]
  split
  · split
    · exact .inr ⟨_, rfl⟩
    · exact .inl rfl
  · exact .inl rfl

theorem elems_notes {db : UniDb} : ∀ (es : List Xml.Elem) {s s' : Xml.PState},
    forEach (Xml.parseElem db true) s es = (s', .ok ()) →
      DNotes s.checks s'.checks (C34.orderNotes s.prev (charCps es)) (Refused db s.lgr es)
  | [], s, s', h => by
    simp only [forEach, Prod.mk.injEq] at h
    rw [← h.1]
    exact ⟨[], rfl, by simp [charCps, C34.orderNotes, Refused], by simp⟩
  | e :: es, s, s', h => by
    rw [forEach] at h
    cases hp : Xml.parseElem db true s e with
    | mk s1 o =>
      rw [hp] at h
      cases o with
      | error er => simp at h
      | ok u =>
        have i2 := elems_notes es h
        obtain ⟨j1, j2⟩ := elem_notes hp
        refine (j2.trans i2).congr (fun t => ?_) ?_
        · rw [charCps_cons, j1]
          unfold elemOrder
          rcases charCps_one e with hc | ⟨k, hc⟩
          · rw [hc]; simp [C34.orderNotes]
          · rw [hc]; simp [C34.orderNotes]
        · have hq : ∀ pre, (forEach (Xml.parseElem db true) { lgr := s.lgr } (e :: pre)).1.lgr =
              (forEach (Xml.parseElem db true) { lgr := s1.lgr } pre).1.lgr := by
            intro pre
            have h1 := (forEach_part (π := Xml.PState.lgr) (fun s t a h => elem_part db s t a h) (e :: pre)
              { lgr := s.lgr } s rfl).1
            have h2 := (forEach_part (π := Xml.PState.lgr) (fun s t a h => elem_part db s t a h) pre
              { lgr := s1.lgr } s1 rfl).1
            rw [h1, h2, forEach, hp]
          unfold Refused
          constructor
          · rintro (h1 | ⟨pre, b, post, h1, h2⟩)
            · exact ⟨[], e, es, rfl, (refused_part (s := { lgr := s.lgr }) (t := s) rfl e).2 h1⟩
            · exact ⟨e :: pre, b, post, by rw [h1]; rfl, (refused_part (hq pre) b).2 h2⟩
          · rintro ⟨pre, b, post, h1, h2⟩
            cases pre with
            | nil =>
              simp only [List.nil_append, List.cons.injEq] at h1
              rw [← h1.1] at h2
              exact .inl ((refused_part (s := { lgr := s.lgr }) (t := s) rfl e).1 h2)
            | cons p pre =>
              simp only [List.cons_append, List.cons.injEq] at h1
              rw [← h1.1] at h2
              exact .inr ⟨pre, b, post, h1.2, (refused_part (hq pre) b).1 h2⟩

/-- Two adjacent code points are out of order, the second not being a prefix of the first. -/
def Unordered (ks : List Seq) : Prop := ∃ pre p k post, ks = pre ++ p :: k :: post ∧ k < p ∧ ¬ k <+: p

/-- Two adjacent code points are the same, or the second is a prefix of the first. -/
def Repeated (ks : List Seq) : Prop := ∃ pre p k post, ks = pre ++ p :: k :: post ∧ k <+: p

theorem take_eq_iff {p k : Seq} : p.take k.length = k ↔ k <+: p := by
  rw [List.prefix_iff_eq_take, eq_comm]

theorem prefix_le {p k : Seq} (h : k <+: p) : k ≤ p := by
  obtain ⟨t, rfl⟩ := h
  refine not_lt.1 fun h => ?_
  induction k with
  | nil => exact List.not_lt_nil _ h
  | cons a k ih =>
    rw [List.cons_append, List.cons_lt_cons_iff] at h
    rcases h with h | h
    · exact lt_irrefl _ h
    · exact ih h.2

theorem orderNotes_asc : ∀ (p : Seq) (ks : List Seq),
    "char_ascending_order" ∈ C34.orderNotes p ks ↔ Unordered (p :: ks)
  | p, [] => by
    simp only [C34.orderNotes, List.not_mem_nil, false_iff]
    rintro ⟨pre, q, k, post, h, -⟩
    have := congrArg List.length h
    simp at this
    omega
  | p, k :: ks => by
    rw [C34.orderNotes, List.mem_append, orderNotes_asc k ks]
    constructor
    · rintro (h | ⟨pre, q, j, post, h1, h2⟩)
      · split at h
        · rename_i hle
          split at h
          · simp at h
          · rename_i hn
            rw [take_eq_iff] at hn
            exact ⟨[], p, k, ks, rfl, lt_of_le_of_ne hle (fun he => hn (he ▸ List.prefix_refl _)), hn⟩
        · simp at h
      · exact ⟨p :: pre, q, j, post, by rw [h1]; rfl, h2⟩
    · rintro ⟨pre, q, j, post, h1, h2, h3⟩
      cases pre with
      | nil =>
        simp only [List.nil_append, List.cons.injEq] at h1
        obtain ⟨rfl, rfl, rfl⟩ := h1
        left
        rw [if_pos (le_of_lt h2), if_neg (fun he => h3 (take_eq_iff.1 he))]
        simp
      | cons a pre =>
        simp only [List.cons_append, List.cons.injEq] at h1
        exact .inr ⟨pre, q, j, post, h1.2, h2, h3⟩

theorem orderNotes_strict : ∀ (p : Seq) (ks : List Seq),
    "char_strict_ascending_order" ∈ C34.orderNotes p ks ↔ Repeated (p :: ks)
  | p, [] => by
    simp only [C34.orderNotes, List.not_mem_nil, false_iff]
    rintro ⟨pre, q, k, post, h, -⟩
    have := congrArg List.length h
    simp at this
    omega
  | p, k :: ks => by
    rw [C34.orderNotes, List.mem_append, orderNotes_strict k ks]
    constructor
    · rintro (h | ⟨pre, q, j, post, h1, h2⟩)
      · split at h
        · split at h
          · rename_i hn
            exact ⟨[], p, k, ks, rfl, take_eq_iff.1 hn⟩
          · simp at h
        · simp at h
      · exact ⟨p :: pre, q, j, post, by rw [h1]; rfl, h2⟩
    · rintro ⟨pre, q, j, post, h1, h2⟩
      cases pre with
      | nil =>
        simp only [List.nil_append, List.cons.injEq] at h1
        obtain ⟨rfl, rfl, rfl⟩ := h1
        left
        rw [if_pos (prefix_le h2), if_pos (take_eq_iff.2 h2)]
        simp
      | cons a pre =>
        simp only [List.cons_append, List.cons.injEq] at h1
        exact .inr ⟨pre, q, j, post, h1.2, h2⟩

end Lgr.Props.C125

import Verif.Props.MetaXml
import Verif.Props.Metadata

/-!
# C99: metadata set by calls of the API, written and read

And the texts for which the round trip fails.
-/

namespace Lgr.Props.C99
open Lgr Xml Text MetaXml

/-! ## Calls -/

/-- Calls which change metadata and references: assignments to `version` and `description`, `scopes.append`
and the methods of `lgr/metadata.py`. -/
inductive MOp where
  | version (value : String) (comment : Option String)
  | date (field s : String) (force : Bool)
  | unicode (s : String) (force : Bool)
  | addLanguage (l : String) (force : Bool)
  | setLanguages (ls : List String) (force : Bool)
  | scope (value : String) (type : Option String)
  | description (value : String) (type : Option String)
  | addRef (value : String) (comment id : Option String)
  | delRef (id : String)
  | updateRef (id : String) (value comment : Option String)

/-- One call; a call which raises leaves the metadata as they were. `del_reference` and
`update_reference` are `lgr/metadata.py` 426-477, where only the dictionary matters here. -/
def mstep (x : Ctx) (m : Meta) : MOp → Meta
  | .version v c => { m with version := some ⟨some v, c⟩ }
  | .date f s force => (setDate x f m s force).1
  | .unicode s force => (setUnicodeVersion x m s force).1
  | .addLanguage l force => { m with languages := (Metadata.addLanguage x.check m.languages l force).1 }
  | .setLanguages ls force => { m with languages := (Metadata.setLanguages x.check m.languages ls force).1 }
  | .scope v t => { m with scopes := m.scopes ++ [⟨some v, t⟩] }
  | .description v t => { m with description := some ⟨some v, t⟩ }
  | .addRef v c i => (addReference m (some v) c i).1
  | .delRef i =>
    if (dget m.refs i).isSome then
      match x.pyInt i.toList with
      | some k => { m with refs := ddel m.refs i, nextId := if k < m.nextId then k else m.nextId }
      | none => { m with refs := ddel m.refs i }
    else m
  | .updateRef i v c =>
    match dget m.refs i with
    | none => m
    | some r => { m with refs := dset m.refs i ⟨v.orElse (fun _ => r.value), c.orElse (fun _ => r.note)⟩ }

def mrun (x : Ctx) (ops : List MOp) : Meta := ops.foldl (mstep x) {}

/-- A note which can be written. -/
def NoteOk (o : Option String) : Prop := ∀ n, o = some n → xmlOk n = true

/-- A comment of a reference which can be written and is not lost. -/
def CommentOk (o : Option String) : Prop := ∀ n, o = some n → Full n

/-- The call has no `force`, and its texts can be written and are not changed by being read. -/
def Usual (x : Ctx) : MOp → Prop
  | .version v c => Full v ∧ NoteOk c
  | .date _ s force => force = false ∧ Full s
  | .unicode s force => force = false ∧ Full s
  | .addLanguage l force => force = false ∧ Full l
  | .setLanguages ls force => force = false ∧ ls.Nodup ∧ ∀ l ∈ ls, Full l ∧ x.check l ≠ none
  | .scope v t => Full v ∧ NoteOk t
  | .description v t => Full v ∧ NoteOk t ∧ '\r' ∉ v.toList ∧ ¬ [']', ']', '>'] <:+: v.toList
  | .addRef v c _ => Full v ∧ CommentOk c
  | .delRef _ => True
  | .updateRef _ v c => (∀ s, v = some s → Full s) ∧ CommentOk c

theorem date_force {x : Ctx} {s r : String} (h : date x s false = .ok r) (force : Bool) :
    r = s ∧ date x s force = .ok s := by
  unfold date at h ⊢
  have key : ∀ r, Metadata.validateDate x.pyInt s.toList false = .ok r →
      r = s.toList ∧ Metadata.validateDate x.pyInt s.toList force = .ok s.toList := by
    intro r h
    unfold Metadata.validateDate at h ⊢
    simp only [Bool.false_eq_true, if_false] at h
    split at h
    · split at h
      · split at h
        · split at h
          · rename_i h2
            cases h
            simp [*]
          · cases h
        · cases h
        · cases h
      · cases h
    · cases h
  split at h
  · cases h
  · rename_i t ht
    cases h
    obtain ⟨h1, h2⟩ := key t ht
    rw [h2, h1]
    exact ⟨String.ofList_toList, by simp⟩

theorem xmlOk_id {i : String} (h : refIdOk i.toList = true) : xmlOk i = true := by
  have hc : ∀ c : Char, decide (c ∈ ['-', '_', '.', ':'] ∨ ('0' ≤ c ∧ c ≤ '9') ∨ ('A' ≤ c ∧ c ≤ 'Z')) = true →
      xmlChar c = true := by
    intro c hc
    have h1 : 0x20 ≤ c.toNat ∧ c.toNat ≤ 0x7F := by
      rw [decide_eq_true_eq] at hc
      rcases hc with hc | ⟨h1, h2⟩ | ⟨h1, h2⟩
      · simp only [List.mem_cons, List.not_mem_nil, or_false] at hc
        rcases hc with rfl | rfl | rfl | rfl <;> decide
      · have h1 : '0'.toNat ≤ c.toNat := h1
        have h2 : c.toNat ≤ '9'.toNat := h2
        simp at h1 h2; omega
      · have h1 : 'A'.toNat ≤ c.toNat := h1
        have h2 : c.toNat ≤ 'Z'.toNat := h2
        simp at h1 h2; omega
    unfold xmlChar
    simp only [Bool.and_eq_true, Bool.or_eq_true, decide_eq_true_eq]
    exact ⟨⟨.inr h1.1, by omega⟩, by omega⟩
  unfold refIdOk at h
  unfold xmlOk
  simp only [Bool.or_eq_true, Bool.and_eq_true, decide_eq_true_eq, List.all_eq_true] at h ⊢
  rcases h with h | ⟨h1, h2⟩
  · exact fun c hm => hc c (by simpa using h c hm)
  · intro c hm
    obtain ⟨ys, hys⟩ := List.getLast?_eq_some_iff.1 h1
    rw [hys, List.mem_append, List.mem_singleton] at hm
    rcases hm with hm | rfl
    · rw [hys, List.dropLast_concat] at h2
      exact hc c (by simpa using h2 c hm)
    · decide

theorem refIdOk_idStr (n : Int) : refIdOk (RefManager.idStr n).toList = true := by
  have hd : ∀ d < 10, decide (digitChar d ∈ ['-', '_', '.', ':'] ∨ ('0' ≤ digitChar d ∧ digitChar d ≤ '9') ∨
      ('A' ≤ digitChar d ∧ digitChar d ≤ 'Z')) = true := by decide
  have hdec : ∀ k : Nat, (decStr k).all (fun c => decide (c ∈ ['-', '_', '.', ':'] ∨ ('0' ≤ c ∧ c ≤ '9') ∨
      ('A' ≤ c ∧ c ≤ 'Z'))) = true := by
    intro k
    unfold decStr
    rw [List.all_map, List.all_eq_true]
    intro d hdm
    exact hd d (digitsOf_lt (by decide) _ d hdm)
  unfold refIdOk RefManager.idStr intStr
  simp only [String.toList_ofList, Bool.or_eq_true]
  left
  split
  · rw [List.all_cons, hdec]; decide
  · exact hdec _

/-- What holds after every history of usual calls. -/
theorem writable_step {x : Ctx} {force : Bool} {m : Meta}
    (h : Writable x force m) {op : MOp} (ho : Usual x op) : Writable x force (mstep x m op) := by
  cases op with
  | version v c =>
    refine { h with version := ?_ }
    intro v' hv
    cases hv
    exact ⟨fun _ h' => by cases h'; exact ho.1, fun n hn => ho.2 n hn⟩
  | date f s fo =>
    obtain ⟨rfl, hs⟩ := ho
    simp only [mstep, setDate]
    split
    · exact h
    · rename_i d hd
      obtain ⟨rfl, h2⟩ := date_force hd force
      have hok : DateOk x force (some d) := fun t ht => by cases ht; exact ⟨hs, h2⟩
      split
      · exact { h with dates := ⟨hok, h.dates.2⟩ }
      · split
        · exact { h with dates := ⟨h.dates.1, hok, h.dates.2.2⟩ }
        · exact { h with dates := ⟨h.dates.1, h.dates.2.1, hok⟩ }
  | unicode s fo =>
    obtain ⟨rfl, hs⟩ := ho
    simp only [mstep, setUnicodeVersion]
    split
    · simpa using h
    · rename_i hv
      exact { h with unicode := ⟨s, rfl, hs, fun _ => by simpa using hv⟩ }
  | addLanguage l fo =>
    obtain ⟨rfl, hl⟩ := ho
    simp only [mstep, Metadata.addLanguage]
    cases hc : x.check l with
    | none => simpa using h
    | some ok =>
      cases ok
      · simpa using h
      · simp only [Bool.true_eq_false, false_and, if_false]
        split
        · exact h
        · rename_i hm
          refine { h with languages := ?_, distinct := ?_ }
          · intro k hk
            rcases List.mem_append.1 hk with hk | hk
            · exact h.languages k hk
            · rw [List.mem_singleton] at hk
              subst hk
              exact ⟨hl, true, hc, fun _ => rfl⟩
          · simp only [List.nodup_append, List.mem_singleton]
            exact ⟨h.distinct, by simp, fun a ha b hb => by rintro rfl; exact hm (hb ▸ ha)⟩
  | setLanguages ls fo =>
    obtain ⟨rfl, hn, hl⟩ := ho
    simp only [mstep]
    rw [C62.set_languages_partial _ _ _ _ (fun l hm => (hl l hm).2)]
    split
    · exact h
    · rename_i hbad
      refine { h with languages := ?_, distinct := hn }
      intro k hk
      refine ⟨(hl k hk).1, true, ?_, fun _ => rfl⟩
      cases hc : x.check k with
      | none => exact absurd hc (hl k hk).2
      | some b =>
        cases b
        · exact absurd ⟨rfl, k, hk, hc⟩ hbad
        · rfl
  | scope v t =>
    refine { h with scopes := ?_ }
    intro s hs
    rcases List.mem_append.1 hs with hs | hs
    · exact h.scopes s hs
    · rw [List.mem_singleton] at hs
      subst hs
      exact ⟨fun _ h' => by cases h'; exact ho.1, ho.2⟩
  | description v t =>
    refine { h with description := ?_ }
    intro d hd
    cases hd
    exact ⟨⟨fun _ h' => by cases h'; exact ho.1, ho.2.1⟩, v, rfl, ho.2.2.1, .inr (.inr ho.2.2.2)⟩
  | addRef v c i =>
    have hnote : ∀ c, CommentOk c → c ≠ some "" := fun c hc h' => (hc _ h').1 rfl
    have hfit : Fits ⟨some v, c⟩ := ⟨fun _ h' => by cases h'; exact ho.1, fun n hn => (ho.2 n hn).2⟩
    have add : ∀ j k, refIdOk j.toList = true → Writable x force
        { m with refs := dset m.refs j ⟨some v, c⟩, nextId := k } := by
      intro j k hj
      refine { h with ids := dset_nodup h.ids _ _, refs := ?_ }
      intro p hp
      rcases mem_dset hp with rfl | hp
      · exact ⟨hj, xmlOk_id hj, hfit, hnote c ho.2⟩
      · exact h.refs p hp
    simp only [mstep, addReference]
    cases i with
    | none => exact add _ _ (refIdOk_idStr _)
    | some i =>
      simp only
      split
      · exact h
      · split
        · exact h
        · rename_i hi
          exact add _ _ (by simpa using hi)
  | delRef i =>
    have del : ∀ k, Writable x force { m with refs := ddel m.refs i, nextId := k } := by
      intro k
      have hsub := ddel_sublist m.refs i
      exact { h with ids := h.ids.sublist (hsub.map _), refs := fun p hp => h.refs p (hsub.subset hp) }
    simp only [mstep]
    split
    · split
      · exact del _
      · exact del _
    · exact h
  | updateRef i v c =>
    simp only [mstep]
    cases hr : dget m.refs i with
    | none => exact h
    | some r =>
      refine { h with ids := dset_nodup h.ids _ _, refs := ?_ }
      intro p hp
      obtain ⟨h1, h2, h3, h4⟩ := h.refs (i, r) (mem_of_dget hr)
      rcases mem_dset hp with rfl | hp
      · refine ⟨h1, h2, ⟨?_, ?_⟩, ?_⟩
        · intro w hw
          cases v with
          | none => exact h3.1 w (by simpa using hw)
          | some v' => exact ho.1 w (by simpa using hw)
        · intro w hw
          cases c with
          | none => exact h3.2 w (by simpa using hw)
          | some c' => exact (ho.2 w (by simpa using hw)).2
        · cases c with
          | none => simpa using h4
          | some c' => exact fun h' => (ho.2 "" (by simpa using h')).1 rfl
      · exact h.refs p hp

/-- The `int`, digits and CDATA sections are what they are for plain ASCII texts. -/
structure Sound (x : Ctx) : Prop where
  digits : ∀ c, '0' ≤ c ∧ c ≤ '9' → x.digit c = true
  dot : x.digit '.' = false
  cdata : Faithful x

theorem writable_run {x : Ctx} (hx : Sound x) (force : Bool) (ops : List MOp) (h : ∀ op ∈ ops, Usual x op) :
    Writable x force (mrun x ops) := by
  have h0 : Writable x force {} := by
    refine { version := by simp, dates := ⟨?_, ?_, ?_⟩, unicode := ⟨"6.3.0", rfl, ?_, fun _ => ?_⟩,
             languages := by simp, distinct := .nil, scopes := by simp, description := by simp,
             ids := .nil, refs := by simp }
    · intro t ht; cases ht
    · intro t ht; cases ht
    · intro t ht; cases ht
    · exact ⟨by decide, by decide +kernel⟩
    · have e : "6.3.0".toList = ['6', '.', '3', '.', '0'] := by decide
      rw [e]
      simp [versionMatch, hx.digits '6' (by decide), hx.digits '3' (by decide), hx.digits '0' (by decide), hx.dot]
  unfold mrun
  generalize ({} : Meta) = m at h0
  induction ops generalizing m with
  | nil => exact h0
  | cons op ops ih =>
    exact ih (fun o ho => h o (List.mem_cons_of_mem _ ho)) _ (writable_step h0 (h op List.mem_cons_self))

/-- **C99** (partial) Whatever calls were made without `force` to set metadata and references, with texts
which are not empty, which XML allows and which have no carriage return: the `<meta>` section can be
written, the parser reads it without exception and without a failed conformance check, with `force` and
without, and the metadata and references read are those written. Missing: other texts, for which it is
false (`*_wrong`). -/
theorem meta_history_partial {x : Ctx} (hx : Sound x) (force : Bool) (ops : List MOp)
    (h : ∀ op ∈ ops, Usual x op) (checks : Rfc7940.Results) :
    ∃ es s', serializeMeta (mrun x ops) = .ok es ∧ parseMeta x force checks es = (s', .ok ()) ∧
      s'.md = { mrun x ops with nextId := 0 } ∧
      ∀ l, dget s'.checks l = some false → dget checks l = some false := by
  obtain ⟨es, s', h1, h2, h3, h4, h5⟩ := meta_round_trip_partial hx.cdata (writable_run hx force ops h) checks
  have w := writable_run hx false ops h
  refine ⟨es, s', h1, h2, h3, h4 ⟨fun t ht => ?_, fun l hl => ?_⟩⟩
  · obtain ⟨t', ht', -, hv⟩ := w.unicode
    rw [ht] at ht'
    cases ht'
    exact hv rfl
  · obtain ⟨-, ok, hc, hok⟩ := w.languages l hl
    rw [hc, hok rfl]

/-! ## Examples -/

/-- Plain decimal numbers, one language, `lxml` as it should be. -/
def x0 : Ctx :=
  { pyInt := fun s => if s = [] then none else (s.mapM hexVal).map (fun ds => (valueOf 10 ds : Nat))
    check := fun l => if l ∈ ["en", "und-Latn"] then some true else if l = "é" then none else some false
    digit := fun c => decide ('0' ≤ c ∧ c ≤ '9')
    cdata := id
    emptyCdata := none }

theorem x0_sound : Sound x0 :=
  ⟨fun c h => by simpa [x0] using h, by decide, fun _ _ => rfl⟩

/-- Calls with all kinds of texts. -/
def sample : List MOp :=
  [.version "1" (some "first"), .date "date" "2024-02-29" false, .date "validity-end" "2030-01-01" false,
   .unicode "11.0.0" false, .addLanguage "en" false, .addLanguage "en" false, .addLanguage "zz" false,
   .addLanguage "und-Latn" false, .scope "example" (some "domain"),
   .description "<p>Text</p>" (some "text/html"), .addRef "RFC 7940" none none,
   .addRef "The Unicode Standard" (some "chapter 5") (some "UNI"), .addRef "Old" none none, .delRef "1",
   .updateRef "0" none (some "LGR")]

instance (s : String) : Decidable (Full s) := inferInstanceAs (Decidable (_ ∧ _))

instance (o : Option String) : Decidable (NoteOk o) :=
  match o with
  | none => isTrue (by intro n hn; cases hn)
  | some n => decidable_of_iff (xmlOk n = true) ⟨fun h m hm => by cases hm; exact h, fun h => h n rfl⟩

instance (o : Option String) : Decidable (CommentOk o) :=
  match o with
  | none => isTrue (by intro n hn; cases hn)
  | some n => decidable_of_iff (Full n) ⟨fun h m hm => by cases hm; exact h, fun h => h n rfl⟩

instance (o : Option String) : Decidable (∀ s, o = some s → Full s) :=
  inferInstanceAs (Decidable (CommentOk o))

instance (x : Ctx) (op : MOp) : Decidable (Usual x op) := by
  cases op <;> unfold Usual <;> infer_instance

example : Sound x0 ∧ (∀ op ∈ sample, Usual x0 op) ∧ (mrun x0 sample).date = some "2024-02-29" ∧
    (mrun x0 sample).languages = ["en", "und-Latn"] ∧
    (mrun x0 sample).refs = [("0", ⟨some "RFC 7940", some "LGR"⟩),
      ("UNI", ⟨some "The Unicode Standard", some "chapter 5"⟩)] :=
  ⟨x0_sound, by decide +kernel, by decide +kernel, by decide +kernel, by decide +kernel⟩

example : Writable x0 false (mrun x0 sample) ∧ Faithful x0 :=
  ⟨writable_run x0_sound false sample (by decide +kernel), x0_sound.cdata⟩

/-! ## Violations -/

/-- Metadata set by calls, written and read, with the outcome. -/
def reread (ops : List MOp) (force : Bool) : Option (Meta × Except Err Unit) :=
  match serializeMeta (mrun x0 ops) with
  | .error _ => none
  | .ok es => some ((parseMeta x0 force [] es).1.md, (parseMeta x0 force [] es).2)

/-- **C99** is violated: an empty description is written, and the document cannot be parsed, not even with
`force`. -/
theorem empty_description_wrong : ∀ force, ∃ m,
    reread [.description "" (some "text/plain")] force = some (m, .error .attributeError) := by
  intro force
  cases force
  · exact ⟨_, rfl⟩
  · exact ⟨_, rfl⟩

/-- **C99** is violated: an empty version, scope or reference is read as `None`, the empty comment of a
reference is lost, a language given twice is read once, `\r\n` in a description becomes `\n`, and no version
of Unicode becomes `6.3.0`. -/
theorem texts_wrong :
    (reread [.version "" none] false).map (fun p => p.1.version) = some (some ⟨none, none⟩) ∧
    (reread [.scope "" none] false).map (fun p => p.1.scopes) = some [⟨none, none⟩] ∧
    (reread [.addRef "" none none] false).map (fun p => p.1.refs) = some [("0", ⟨none, none⟩)] ∧
    (reread [.addRef "R" (some "") none] false).map (fun p => p.1.refs) = some [("0", ⟨some "R", none⟩)] ∧
    (reread [.setLanguages ["en", "en"] false] false).map (fun p => p.1.languages) = some ["en"] ∧
    (reread [.description "a\r\nb" none] false).map (fun p => p.1.description) = some (some ⟨some "a\nb", none⟩) ∧
    (match serializeMeta { unicodeVersion := none } with
      | .ok es => some (parseMeta x0 false [] es).1.md.unicodeVersion
      | .error _ => none) = some (some "6.3.0") :=
  ⟨by decide +kernel, by decide +kernel, by decide +kernel, by decide +kernel, by decide +kernel,
    by decide +kernel, by decide +kernel⟩

/-- **C99** is violated: a description with the end of a CDATA section cannot be written, nor one with a
control character. -/
theorem unwritable_wrong :
    serializeMeta (mrun x0 [.description "a]]>b" (some "text/html")]) = .error .valueError ∧
    serializeMeta (mrun x0 [.description "a\x07" none]) = .error .valueError := by
  constructor <;> rfl

end Lgr.Props.C99

/-! # C100: the version of Unicode -/

namespace Lgr.Props.C100
open Lgr MetaXml C99

/-- The form `x.y.z`: three numbers. -/
def IsVersion (digit : Char → Bool) (s : List Char) : Prop :=
  ∃ a b c, a ≠ [] ∧ b ≠ [] ∧ c ≠ [] ∧ (∀ d ∈ a ++ b ++ c, digit d = true) ∧ s = a ++ '.' :: b ++ '.' :: c

theorem span_eq {digit : Char → Bool} (hd : digit '.' = false) {a t : List Char} (ha : ∀ d ∈ a, digit d = true) :
    (a ++ '.' :: t).takeWhile digit = a ∧ (a ++ '.' :: t).dropWhile digit = '.' :: t := by
  induction a with
  | nil => simp [hd]
  | cons c a ih =>
    obtain ⟨h1, h2⟩ := ih (fun d h => ha d (List.mem_cons_of_mem _ h))
    have hc := ha c List.mem_cons_self
    simp [hc, h1, h2]

theorem versionMatch_iff {digit : Char → Bool} (hd : digit '.' = false) (s : List Char) :
    versionMatch digit s = true ↔ ∃ v t, IsVersion digit v ∧ s = v ++ t := by
  constructor
  · intro h
    unfold versionMatch at h
    split at h
    · rename_i a1 a s1 ha hs
      split at h
      · rename_i b1 b s2 hb hs1
        cases s2 with
        | nil => cases h
        | cons c t =>
          have e1 : s = (a1 :: a) ++ '.' :: s1 := by
            rw [← ha, ← hs, List.takeWhile_append_dropWhile]
          have e2 : s1 = (b1 :: b) ++ '.' :: c :: t := by
            rw [← hb, ← hs1, List.takeWhile_append_dropWhile]
          refine ⟨(a1 :: a) ++ '.' :: (b1 :: b) ++ '.' :: [c], t, ⟨a1 :: a, b1 :: b, [c], by simp, by simp,
            by simp, ?_, rfl⟩, ?_⟩
          · intro d hdm
            simp only [List.mem_append] at hdm
            rcases hdm with (hdm | hdm) | hdm
            · rw [← ha] at hdm
              exact (List.all_eq_true.1 List.all_takeWhile) d hdm
            · rw [← hb] at hdm
              exact (List.all_eq_true.1 List.all_takeWhile) d hdm
            · rw [List.mem_singleton] at hdm
              subst hdm
              exact h
          · rw [e1, e2]; simp
      · cases h
    · cases h
  · rintro ⟨v, t, ⟨a, b, c, ha, hb, hc, hall, rfl⟩, rfl⟩
    have h1 := span_eq hd (a := a) (t := b ++ '.' :: (c ++ t)) (fun d h => hall d (by simp [h]))
    have h2 := span_eq hd (a := b) (t := c ++ t) (fun d h => hall d (by simp [h]))
    have e : a ++ '.' :: b ++ '.' :: c ++ t = a ++ '.' :: (b ++ '.' :: (c ++ t)) := by simp
    rw [e]
    unfold versionMatch
    rw [h1.1, h1.2]
    obtain ⟨a1, a', rfl⟩ := List.exists_cons_of_ne_nil ha
    obtain ⟨b1, b', rfl⟩ := List.exists_cons_of_ne_nil hb
    obtain ⟨c1, c', rfl⟩ := List.exists_cons_of_ne_nil hc
    simp only
    rw [h2.1, h2.2]
    simp only
    exact hall c1 (by simp)

/-- **C100** (partial) `set_unicode_version` without `force` accepts exactly the texts which begin with a
version `x.y.z`, so all versions of this form; the text is stored as given, and a rejected one changes
nothing and is recorded as a failed check. With `force` every text is stored, and one which is not a
version is recorded. Missing: that what follows the version is rejected, which is false
(`version_suffix_wrong`). -/
theorem unicode_version_partial (x : Ctx) (hd : x.digit '.' = false) (m : Meta) (s : String) :
    (∀ v t, IsVersion x.digit v → s.toList = v ++ t → ∀ force,
      setUnicodeVersion x m s force = ({ m with unicodeVersion := some s }, false, .ok ())) ∧
    ((¬ ∃ v t, IsVersion x.digit v ∧ s.toList = v ++ t) →
      setUnicodeVersion x m s false = (m, true, .error (.format "INVALID_UNICODE_VERSION_TAG")) ∧
      setUnicodeVersion x m s true = ({ m with unicodeVersion := some s }, true, .ok ())) := by
  constructor
  · intro v t hv hs force
    have := (versionMatch_iff hd s.toList).2 ⟨v, t, hv, hs⟩
    simp [setUnicodeVersion, this]
  · intro h
    have : versionMatch x.digit s.toList = false := by
      rw [← Bool.not_eq_true, versionMatch_iff hd]
      exact h
    simp [setUnicodeVersion, this]

/-- **C100** is violated: what follows the version is not looked at. -/
theorem version_suffix_wrong : ¬ IsVersion x0.digit "6.3.0 or so".toList ∧
    setUnicodeVersion x0 {} "6.3.0 or so" false = ({ unicodeVersion := some "6.3.0 or so" }, false, .ok ()) := by
  constructor
  · rintro ⟨a, b, c, -, -, -, hall, e⟩
    have hs : ' ' ∈ a ++ '.' :: b ++ '.' :: c := by rw [← e]; decide
    simp only [List.mem_append, List.mem_cons] at hs
    have h0 : ¬ ∃ d ∈ a ++ b ++ c, d = ' ' := by
      rintro ⟨d, hd, rfl⟩
      have := hall ' ' hd
      simp [x0] at this
    apply h0
    refine ⟨' ', ?_, rfl⟩
    simp only [List.mem_append]
    rcases hs with (hs | hs | hs) | hs | hs
    · exact .inl (.inl hs)
    · simp at hs
    · exact .inl (.inr hs)
    · simp at hs
    · exact .inr hs
  · rfl

example : IsVersion x0.digit "11.0.0".toList ∧ x0.digit '.' = false ∧
    ¬ ∃ v t, IsVersion x0.digit v ∧ "11.0".toList = v ++ t := by
  refine ⟨⟨['1', '1'], ['0'], ['0'], by decide, by decide, by decide, by decide, by decide⟩, by decide, ?_⟩
  rw [← versionMatch_iff (by decide)]
  decide

end Lgr.Props.C100

import Verif.Props.CompareGood

/-!
# C140: the metadata of a union and an intersection can be written
-/

namespace Lgr.Props.C140
open Lgr Xml MetaXml DocXml Compare CompareTool C30 C99 C104

/-! ## References -/

theorem refs_ids (vals : List String) : ∀ p ∈ (refsOf vals).refs,
    (∃ n, p.1 = RefManager.idStr n) ∧ p.2.value ∈ vals ∧ p.2.comment = none := by
  have key : ∀ (todo vals : List String) (m : RefManager), (∀ v ∈ todo, v ∈ vals) →
      (∀ p ∈ m.refs, (∃ n, p.1 = RefManager.idStr n) ∧ p.2.value ∈ vals ∧ p.2.comment = none) →
      ∀ p ∈ (todo.foldl (fun m v =>
        match m.addReference (fun _ => true) v none none with
        | .ok (m', _) => m'
        | .error _ => m) m).refs, (∃ n, p.1 = RefManager.idStr n) ∧ p.2.value ∈ vals ∧ p.2.comment = none := by
    intro todo
    induction todo with
    | nil => intro vals m _ h; exact h
    | cons v todo ih =>
      intro vals m hv h
      rw [List.foldl_cons]
      refine ih vals _ (fun u hu => hv u (List.mem_cons_of_mem _ hu)) ?_
      intro p hp
      rcases mem_dset hp with rfl | hp
      · exact ⟨⟨_, rfl⟩, hv v (by simp), rfl⟩
      · exact h p hp
  exact key vals vals {} (fun _ h => h) (by simp)

theorem manager_refs {m : RefManager} {md : Meta} (h1 : md.refs = refsMeta m) (h2 : md.nextId = m.nextId) :
    managerOf md = m := by
  unfold managerOf
  rw [h1, h2]
  unfold refsMeta
  rw [List.map_map]
  have : (m.refs.map ((fun p : String × MetaXml.Txt => (p.1, ({ value := p.2.value.getD "", comment := p.2.note } : Ref))) ∘
      fun p => (p.1, ⟨if p.2.value = "" then none else some p.2.value, p.2.comment⟩))) = m.refs := by
    conv_rhs => rw [← List.map_id m.refs]
    apply List.map_congr_left
    rintro ⟨i, ⟨v, c⟩⟩ -
    simp only [Function.comp, id_eq, Prod.mk.injEq, true_and]
    split
    · rename_i h; simp [h]
    · rfl
  rw [this]

/-! ## Texts -/

/-- The end of a CDATA section. -/
def cdataEnd : List Char := [']', ']', '>']

theorem infix_sep {α : Type} {p a b : List α} {c : α} (hc : c ∉ p) (h : p <:+: a ++ c :: b) : p <:+: a ∨ p <:+: b := by
  obtain ⟨s, t, h⟩ := h
  rw [List.append_assoc] at h
  rcases List.append_eq_append_iff.1 h with ⟨u, h1, h2⟩ | ⟨u, h1, h2⟩
  · -- a = s ++ u, p ++ t = u ++ c :: b
    rcases List.append_eq_append_iff.1 h2 with ⟨w, h3, h4⟩ | ⟨w, h3, h4⟩
    · exact .inl ⟨s, w, by rw [h1, h3, List.append_assoc]⟩
    · cases w with
      | nil => exact .inl ⟨s, [], by rw [h1, h3]; simp⟩
      | cons d w =>
        simp only [List.cons_append, List.cons.injEq] at h4
        exact absurd (by rw [h3, ← h4.1]; simp) hc
  · cases u with
    | nil =>
      simp only [List.nil_append] at h2
      cases p with
      | nil => exact .inr ⟨[], b, rfl⟩
      | cons d p =>
        simp only [List.cons_append, List.cons.injEq] at h2
        exact absurd (by rw [h2.1]; simp) hc
    | cons d u =>
      simp only [List.cons_append, List.cons.injEq] at h2
      exact .inr ⟨u, t, by rw [h2.2, List.append_assoc]⟩

/-- A text that survives in a CDATA section. -/
structure Mild (s : String) : Prop where
  xml : xmlOk s = true
  cr : '\r' ∉ s.toList
  cdata : ¬ cdataEnd <:+: s.toList

theorem mild_sep {a b : String} {c : Char} (h1 : Mild a) (h2 : Mild b) (hx : xmlChar c = true) (hr : c ≠ '\r')
    (hc : c ∉ cdataEnd) : Mild (a ++ String.ofList [c] ++ b) := by
  have hl : (a ++ String.ofList [c] ++ b).toList = a.toList ++ c :: b.toList := by
    simp [String.toList_append]
  refine ⟨?_, ?_, ?_⟩
  · have e1 := h1.xml
    have e2 := h2.xml
    unfold xmlOk at *
    rw [hl, List.all_append, List.all_cons, e1, e2, hx]; rfl
  · rw [hl]
    simp only [List.mem_append, List.mem_cons, not_or]
    exact ⟨h1.cr, fun h => hr h.symm, h2.cr⟩
  · rw [hl]
    intro h
    rcases infix_sep hc h with h | h
    · exact h1.cdata h
    · exact h2.cdata h

theorem mild_nl {a b : String} (h1 : Mild a) (h2 : Mild b) : Mild (a ++ "\n" ++ b) :=
  mild_sep (c := '\n') h1 h2 (by decide) (by decide) (by decide)

theorem mild_quote {a b : String} (h1 : Mild a) (h2 : Mild b) : Mild (a ++ "'" ++ b) :=
  mild_sep (c := '\'') h1 h2 (by decide) (by decide) (by decide)

theorem mild_bar {a b : String} (h1 : Mild a) (h2 : Mild b) : Mild (a ++ "|" ++ b) :=
  mild_sep (c := '|') h1 h2 (by decide) (by decide) (by decide)

/-- A text without the characters of the end of a CDATA section. -/
theorem mild_lit {s : String} (h : s.toList.all (fun c => xmlChar c && decide (c ≠ '\r') && decide (c ≠ ']')) = true) :
    Mild s := by
  rw [List.all_eq_true] at h
  refine ⟨?_, fun hr => ?_, fun hc => ?_⟩
  · unfold xmlOk
    rw [List.all_eq_true]
    intro c hc
    have := h c hc
    simp only [Bool.and_eq_true] at this
    exact this.1.1
  · have := h _ hr
    simp at this
  · have := h ']' (hc.subset (by simp [cdataEnd]))
    simp at this

/-- A description whose text and type survive in a CDATA section. -/
def MildDesc (o : Option MetaXml.Txt) : Prop :=
  ∀ d, o = some d → (∀ v, d.value = some v → Mild v) ∧ ∀ n, d.note = some n → Mild n

theorem mild_fmt {o : Option String} (h : ∀ v, o = some v → Mild v) : Mild (fmt o) := by
  cases o with
  | none => exact mild_lit (by decide +kernel)
  | some v => exact h v rfl

/-- The long text made of two descriptions, `t` the character after the first type. -/
theorem mild_both {a b : MetaXml.Txt} (ha : MildDesc (some a)) (hb : MildDesc (some b)) {t : String} (ht : Mild t) :
    Mild ("\nOriginal MIME-type for first description: '" ++ fmt a.note ++ ("'" ++ t ++ "\n") ++ fmt a.value ++
      "\n\n----\n\nOriginal MIME-type for second description: '" ++ fmt b.note ++ "'.\n" ++ fmt b.value ++ "\n") := by
  have e : ("\nOriginal MIME-type for first description: '" ++ fmt a.note ++ ("'" ++ t ++ "\n") ++ fmt a.value ++
      "\n\n----\n\nOriginal MIME-type for second description: '" ++ fmt b.note ++ "'.\n" ++ fmt b.value ++ "\n") =
      ("\nOriginal MIME-type for first description: " ++ "'" ++ (fmt a.note ++ "'" ++ (t ++ "\n" ++ (fmt a.value ++ "\n" ++
        ("\n----\n\nOriginal MIME-type for second description: " ++ "'" ++ (fmt b.note ++ "'" ++
          ("." ++ "\n" ++ (fmt b.value ++ "\n" ++ "")))))))) := by
    apply String.toList_inj.1
    simp only [String.toList_append, List.append_assoc]
    have l1 : "\nOriginal MIME-type for first description: '".toList =
      "\nOriginal MIME-type for first description: ".toList ++ "'".toList := by decide +kernel
    have l2 : "\n\n----\n\nOriginal MIME-type for second description: '".toList = "\n".toList ++
      ("\n----\n\nOriginal MIME-type for second description: ".toList ++ "'".toList) := by decide +kernel
    have l3 : "'.\n".toList = "'".toList ++ (".".toList ++ "\n".toList) := by decide +kernel
    have l4 : "".toList = [] := rfl
    rw [l1, l2, l3, l4]
    simp only [List.append_assoc, List.append_nil]
  rw [e]
  refine mild_quote (mild_lit (by decide +kernel)) (mild_quote (mild_fmt (ha a rfl).2) (mild_nl ht (mild_nl (mild_fmt (ha a rfl).1)
    (mild_quote (mild_lit (by decide +kernel)) (mild_quote (mild_fmt (hb b rfl).2) (mild_nl (mild_lit (by decide +kernel))
      (mild_nl (mild_fmt (hb b rfl).1) (mild_lit (by decide +kernel)))))))))

/-- What the writer asks of a description. -/
def DescOk (o : Option MetaXml.Txt) : Prop := ∀ d, o = some d → Fits d ∧ ∃ v, d.value = some v ∧ '\r' ∉ v.toList ∧
  (d.note = none ∨ d.note = some "text/plain" ∨ ¬ [']', ']', '>'] <:+: v.toList)

theorem desc_of {v n : String} (hv : Mild v) (hn : xmlOk n = true) (he : v ≠ "") : DescOk (some ⟨some v, some n⟩) := by
  intro d hd
  cases hd
  exact ⟨⟨fun w hw => by cases hw; exact ⟨he, hv.xml⟩, fun w hw => by cases hw; exact hn⟩, v, rfl, hv.cr,
    .inr (.inr hv.cdata)⟩

theorem ne_of_mem {s : String} {c : Char} (h : c ∈ s.toList) : s ≠ "" := by
  rintro rfl
  simp at h

/-- The text made of two descriptions is not empty. -/
theorem both_ne {a b t : String} : "\nOriginal MIME-type for first description: '" ++ a ++ t ++ b ≠ "" := by
  refine ne_of_mem (c := 'O') ?_
  simp only [String.toList_append, List.mem_append]
  exact .inl (.inl (.inl (by decide +kernel)))

theorem desc_union {a b : Option MetaXml.Txt} (ha : DescOk a) (hb : DescOk b) (ma : MildDesc a) (mb : MildDesc b) :
    DescOk (unionDescription a b) := by
  cases a with
  | none => exact hb
  | some a =>
    cases b with
    | none => exact ha
    | some b =>
      dsimp only [unionDescription]
      split
      · exact ha
      · split
        · refine desc_of (mild_nl (mild_fmt (ma a rfl).1) (mild_fmt (mb b rfl).1)) (by decide +kernel) (ne_of_mem (c := '\n') ?_)
          simp only [String.toList_append, List.mem_append]
          exact .inl (.inr (by decide +kernel))
        · have h := mild_both ma mb (t := ":") (mild_lit (by decide +kernel))
          rw [show ("'" ++ ":" ++ "\n" : String) = "':\n" by decide +kernel] at h
          refine desc_of h (by decide +kernel) (ne_of_mem (c := 'O') ?_)
          simp only [String.toList_append, List.mem_append]
          exact .inl (.inl (.inl (.inl (.inl (.inl (.inl (.inl (by decide +kernel))))))))

theorem desc_intersect {a b : Option MetaXml.Txt} (ha : DescOk a) (hb : DescOk b) (ma : MildDesc a) (mb : MildDesc b) :
    DescOk (intersectDescription a b) := by
  cases a with
  | none => exact hb
  | some a =>
    cases b with
    | none => exact ha
    | some b =>
      dsimp only [intersectDescription]
      split
      · obtain ⟨f1, v1, e1, c1, -⟩ := ha a rfl
        obtain ⟨f2, v2, e2, c2, -⟩ := hb b rfl
        have m1 := (ma a rfl).1 v1 e1
        have m2 := (mb b rfl).1 v2 e2
        intro d hd
        cases hd
        rw [e1, e2]
        simp only [letUserChoose]
        have key : ∀ v, Mild v → v ≠ "" → Fits ⟨some v, a.note⟩ ∧ ∃ w, some v = some w ∧ '\r' ∉ w.toList ∧
            (a.note = none ∨ a.note = some "text/plain" ∨ ¬ [']', ']', '>'] <:+: w.toList) :=
          fun v hv he => ⟨⟨fun w hw => by cases hw; exact ⟨he, hv.xml⟩, f1.2⟩, v, rfl, hv.cr, .inr (.inr hv.cdata)⟩
        split
        · exact key v1 m1 (f1.1 v1 e1).1
        · refine key _ (mild_bar m1 m2) (ne_of_mem (c := '|') ?_)
          simp only [String.toList_append, List.mem_append]
          exact .inl (.inr (by decide +kernel))
      · have h := mild_both ma mb (t := ".") (mild_lit (by decide +kernel))
        rw [show ("'" ++ "." ++ "\n" : String) = "'.\n" by decide +kernel] at h
        refine desc_of h (by decide +kernel) (ne_of_mem (c := 'O') ?_)
        simp only [String.toList_append, List.mem_append]
        exact .inl (.inl (.inl (.inl (.inl (.inl (.inl (.inl (by decide +kernel))))))))

/-! ## Versions and dates -/

theorem choose_full {a b : Option String} (ha : ∀ s, a = some s → Full s) (hb : ∀ s, b = some s → Full s) :
    ∀ s, letUserChoose a b = some s → Full s := by
  intro s hs
  refine ⟨?_, choose_ok (fun s h => (ha s h).2) (fun s h => (hb s h).2) s hs⟩
  cases a with
  | none => exact (hb s (by simpa [letUserChoose] using hs)).1
  | some x =>
    cases b with
    | none => exact (ha s (by simpa [letUserChoose] using hs)).1
    | some y =>
      simp only [letUserChoose] at hs
      split at hs
      · exact (ha s hs).1
      · cases hs
        refine ne_of_mem (c := '|') ?_
        simp only [String.toList_append, List.mem_append]
        exact .inl (.inr (by decide +kernel))

theorem fits_choose {a b : MetaXml.Txt} (ha : Fits a) (hb : Fits b) :
    Fits ⟨letUserChoose a.value b.value, letUserChoose a.note b.note⟩ :=
  ⟨choose_full ha.1 hb.1, choose_ok ha.2 hb.2⟩

theorem fits_union {a b : Option MetaXml.Txt} (ha : ∀ v, a = some v → Fits v) (hb : ∀ v, b = some v → Fits v) :
    ∀ v, unionVersion a b = some v → Fits v := by
  intro v hv
  cases a with
  | none => exact hb v hv
  | some a =>
    cases b with
    | none => exact ha v hv
    | some b =>
      dsimp only [unionVersion] at hv
      split at hv
      · exact ha v hv
      · cases hv
        exact fits_choose (ha a rfl) (hb b rfl)

theorem fits_intersect {a b : Option MetaXml.Txt} (ha : ∀ v, a = some v → Fits v) (hb : ∀ v, b = some v → Fits v) :
    ∀ v, intersectVersion a b = some v → Fits v := by
  intro v hv
  cases a with
  | none => exact hb v hv
  | some a =>
    cases b with
    | none => exact ha v hv
    | some b =>
      cases hv
      exact fits_choose (ha a rfl) (hb b rfl)

theorem chosen {α : Type} {f : α → α → α} {a b r : Option α} {p : α → Prop} (hf : ∀ x y, f x y = x ∨ f x y = y)
    (ha : ∀ x, a = some x → p x) (hb : ∀ x, b = some x → p x) (hr : Metadata.compareObjects f a b = r) :
    ∀ x, r = some x → p x := by
  subst hr
  intro x hx
  cases a with
  | none => exact hb x hx
  | some y =>
    cases b with
    | none => exact ha x hx
    | some z =>
      cases hx
      rcases hf y z with h | h
      · rw [h]; exact ha y rfl
      · rw [h]; exact hb z rfl

theorem max_choice (x y : String) : maxStr x y = x ∨ maxStr x y = y := by
  unfold maxStr; split <;> simp

theorem min_choice (x y : String) : minStr x y = x ∨ minStr x y = y := by
  unfold minStr; split <;> simp

/-! ## The whole -/

variable {x : MetaXml.Ctx} {E : CompareTool.Env} {m1 m2 : Meta}

theorem refs_writable {vals : List String} (h : ∀ v ∈ vals, v = "" ∨ Full v) {m : RefManager} (hm : m = refsOf vals) :
    ((refsMeta m).map Prod.fst).Nodup ∧ (dget (refsMeta m) "").isSome = false ∧
    ∀ p ∈ refsMeta m, refIdOk p.1.toList = true ∧ xmlOk p.1 = true ∧ Fits p.2 ∧ p.2.note ≠ some "" := by
  subst hm
  have hfst : (refsMeta (refsOf vals)).map Prod.fst = (refsOf vals).refs.map Prod.fst := by
    unfold refsMeta
    rw [List.map_map]; rfl
  have hid : ∀ p ∈ refsMeta (refsOf vals), ∃ n, p.1 = RefManager.idStr n := by
    intro p hp
    obtain ⟨q, hq, rfl⟩ := List.mem_map.1 hp
    exact (refs_ids vals q hq).1
  refine ⟨by rw [hfst]; exact (C58.refsOf_spec vals).2, ?_, ?_⟩
  · cases hd : dget (refsMeta (refsOf vals)) "" with
    | none => rfl
    | some t =>
      obtain ⟨n, hn⟩ := hid _ (mem_of_dget hd)
      exact absurd hn.symm (idStr_ne n)
  · intro p hp
    obtain ⟨n, hn⟩ := hid p hp
    have hok : refIdOk p.1.toList = true := by rw [hn]; exact refIdOk_idStr n
    refine ⟨hok, xmlOk_id hok, ?_⟩
    obtain ⟨q, hq, rfl⟩ := List.mem_map.1 hp
    obtain ⟨-, hv, hc⟩ := refs_ids vals q hq
    dsimp only
    rw [hc]
    refine ⟨⟨fun v hvv => ?_, by simp⟩, by simp⟩
    split at hvv
    · cases hvv
    · rename_i hne
      cases hvv
      exact (h _ hv).resolve_left hne

/-- The values of references of an LGR that was read. -/
theorem values_full {md : Meta} {m : RefManager} (hm : MGood x true md) (h : m = managerOf md) :
    ∀ v ∈ values m, v = "" ∨ Full v := by
  subst h
  intro v hv
  unfold values managerOf at hv
  rw [List.map_map] at hv
  obtain ⟨p, hp, rfl⟩ := List.mem_map.1 hv
  obtain ⟨-, -, hf, -⟩ := hm.writable.refs p hp
  simp only [Function.comp]
  cases hpv : p.2.value with
  | none => exact .inl rfl
  | some w => exact .inr (hf.1 w hpv)

theorem mgood_union {vals : List String} (hvals : ∀ v ∈ vals, v = "" ∨ Full v) {m : RefManager} (hm : m = refsOf vals)
    (h1 : MGood x true m1) (h2 : MGood x true m2) (hd : DateOk x true (some E.today))
    (d1 : MildDesc m1.description) (d2 : MildDesc m2.description) : MGood x true (unionMeta E m m1 m2) := by
  obtain ⟨r1, r2, r3⟩ := refs_writable hvals hm
  refine ⟨⟨?_, ⟨hd, ?_, ?_⟩, ?_, ?_, ?_, ?_, ?_, r1, r3⟩, fun _ => r2⟩
  · intro v hv
    unfold unionMeta at hv
    dsimp only at hv
    split at hv
    · exact fits_union h1.writable.version h2.writable.version v hv
    · cases hv
  · exact chosen max_choice h1.writable.dates.2.1 h2.writable.dates.2.1 rfl
  · exact chosen min_choice h1.writable.dates.2.2 h2.writable.dates.2.2 rfl
  · obtain ⟨t1, e1, f1, -⟩ := h1.writable.unicode
    obtain ⟨t2, e2, f2, -⟩ := h2.writable.unicode
    refine ⟨maxStr t1 t2, by unfold unionMeta; dsimp only; rw [e1, e2]; rfl, ?_, fun h => by cases h⟩
    rcases max_choice t1 t2 with h | h <;> rw [h] <;> assumption
  · intro l hl
    unfold unionMeta at hl
    dsimp only at hl
    rw [(E.ord.strs_perm _).mem_iff, mem_union] at hl
    exact hl.elim (h1.writable.languages l) (h2.writable.languages l)
  · exact ((E.ord.strs_perm _).nodup_iff).2 (nodup_union _ _)
  · intro s hs
    unfold unionMeta at hs
    dsimp only at hs
    rw [(E.scopes_perm _).mem_iff, mem_union] at hs
    exact hs.elim (h1.writable.scopes s) (h1.writable.scopes s)
  · have : DescOk (if m1.description.isSome then unionDescription m1.description m2.description else none) := by
      split
      · exact desc_union h1.writable.description h2.writable.description d1 d2
      · intro d hd; cases hd
    exact this

theorem mgood_intersect {vals : List String} (hvals : ∀ v ∈ vals, v = "" ∨ Full v) {m : RefManager} (hm : m = refsOf vals)
    (h1 : MGood x true m1) (h2 : MGood x true m2) (hd : DateOk x true (some E.today))
    (d1 : MildDesc m1.description) (d2 : MildDesc m2.description) : MGood x true (intersectMeta E m m1 m2) := by
  obtain ⟨r1, r2, r3⟩ := refs_writable hvals hm
  refine ⟨⟨?_, ⟨hd, ?_, ?_⟩, ?_, ?_, ?_, ?_, ?_, r1, r3⟩, fun _ => r2⟩
  · exact fits_intersect h1.writable.version h2.writable.version
  · exact chosen max_choice h1.writable.dates.2.1 h2.writable.dates.2.1 rfl
  · exact chosen min_choice h1.writable.dates.2.2 h2.writable.dates.2.2 rfl
  · obtain ⟨t1, e1, f1, -⟩ := h1.writable.unicode
    obtain ⟨t2, e2, f2, -⟩ := h2.writable.unicode
    refine ⟨maxStr t1 t2, by unfold intersectMeta; dsimp only; rw [e1, e2]; rfl, ?_, fun h => by cases h⟩
    rcases max_choice t1 t2 with h | h <;> rw [h] <;> assumption
  · intro l hl
    unfold intersectMeta at hl
    dsimp only at hl
    rw [(E.ord.strs_perm _).mem_iff, List.mem_filter, mem_toSet] at hl
    exact h1.writable.languages l hl.1
  · exact ((E.ord.strs_perm _).nodup_iff).2 ((nodup_toSet _).filter _)
  · intro s hs
    unfold intersectMeta at hs
    dsimp only at hs
    rw [(E.scopes_perm _).mem_iff, List.mem_filter, mem_toSet] at hs
    exact h1.writable.scopes s hs.1
  · exact desc_intersect h1.writable.description h2.writable.description d1 d2

end Lgr.Props.C140

import Verif.DocXml
import Verif.Props.Xml
import Verif.Props.ClassXml

/-!
# C104: what the parser has read from a data section can be written
-/

namespace Lgr.Props.C104
open Lgr Xml Text Repertoire LGR C50 C04 C40 C34 C06 DocXml

/-! ## Texts -/

theorem go_words (d : Char) : ∀ (s cur : List Char), d ∉ cur → ∀ w ∈ splitOn.go d cur s, d ∉ w := by
  intro s
  induction s with
  | nil =>
    intro cur hc w hw
    simp only [splitOn.go, List.mem_singleton] at hw
    rw [hw]; simpa using hc
  | cons c s ih =>
    intro cur hc w hw
    simp only [splitOn.go] at hw
    split at hw
    · rcases List.mem_cons.1 hw with rfl | hw
      · simpa using hc
      · exact ih [] (by simp) w hw
    · rename_i hne
      exact ih (c :: cur) (by simp only [List.mem_cons, not_or]; exact ⟨fun h => hne h.symm, hc⟩) w hw

theorem words_split (s : String) : Words (splitS s) := by
  unfold splitS stringToList
  split
  · rename_i hl
    refine ⟨fun w hw => ?_, fun he => ?_⟩
    · obtain ⟨l, hl, rfl⟩ := List.mem_map.1 hw
      rw [String.toList_ofList]
      exact go_words ' ' _ [] (by simp) l hl
    · have hj : join ' ' (splitOn ' ' s.toList) = s.toList := by
        have := C102.go_pieces ' ' s.toList []
        simpa [splitOn] using this
      have : splitOn ' ' s.toList = [[]] := by
        cases hsp : splitOn ' ' s.toList with
        | nil => rw [hsp] at he; simp at he
        | cons a t =>
          rw [hsp] at he
          simp only [List.map_cons, List.cons.injEq, List.map_eq_nil_iff] at he
          have ha : a = [] := by rw [← String.toList_ofList (l := a), he.1]; rfl
          rw [ha, he.2]
      rw [this] at hj
      simp [join] at hj
      rw [hj] at hl; simp at hl
  · exact ⟨by simp, by simp⟩

theorem words_filter {l : List String} {p : String → Bool} (h : ∀ w ∈ l, ' ' ∉ w.toList) (hp : p "" = false) :
    Words (l.filter p) := by
  refine ⟨fun w hw => h w (List.mem_filter.1 hw).1, fun he => ?_⟩
  have : "" ∈ l.filter p := by rw [he]; simp
  rw [(List.mem_filter.1 this).2] at hp
  cases hp

/-- All strings of an element of the document are made of XML characters. -/
def AttrsOk (a : XAttrs) : Prop := ∀ p ∈ a, xmlOk p.2 = true

theorem dget_ok {a : XAttrs} (h : AttrsOk a) {k v : String} (hv : dget a k = some v) : xmlOk v = true :=
  h (k, v) (mem_of_dget hv)

theorem join_mem {sep x : Char} : ∀ {l : List (List Char)} {w : List Char}, w ∈ l → x ∈ w → x ∈ join sep l
  | [], _, hw, _ => by simp at hw
  | [a], w, hw, hx => by
    simp only [List.mem_singleton] at hw
    subst hw
    simpa [join] using hx
  | a :: b :: l, w, hw, hx => by
    simp only [join, List.mem_append, List.mem_cons]
    rcases List.mem_cons.1 hw with rfl | hw
    · exact .inl hx
    · exact .inr (.inr (join_mem hw hx))

theorem split_ok {s : String} (h : xmlOk s = true) : ∀ w ∈ splitS s, xmlOk w = true := by
  intro w hw
  unfold splitS stringToList at hw
  split at hw
  · obtain ⟨l, hl, rfl⟩ := List.mem_map.1 hw
    have hj : join ' ' (splitOn ' ' s.toList) = s.toList := by
      have := C102.go_pieces ' ' s.toList []
      simpa [splitOn] using this
    unfold xmlOk at h ⊢
    rw [String.toList_ofList, List.all_eq_true]
    intro x hx
    exact List.all_eq_true.1 h x (by rw [← hj]; exact join_mem hl hx)
  · simp at hw

theorem getList_ok {a : XAttrs} (h : AttrsOk a) (k : String) : ∀ w ∈ getList a k, xmlOk w = true := by
  unfold getList
  cases hv : dget a k with
  | none => intro w hw; simp [split_empty] at hw
  | some v => exact split_ok (dget_ok h hv)

/-! ## The state of the parser -/

/-- What holds of an LGR being read: its entries can be written and read again, its ranges are complete,
and the classes of tags and the types of variants are those of the entries. -/
structure Good (db : UniDb) (strict force : Bool) (m : RefManager) (g : LGR) : Prop where
  refs : g.refs = m
  raises : g.raiseInvalid = strict
  inv : Inv (Readable db strict force m) g.rep
  intact : Intact g.rep
  tags : ∀ t x, x ∈ tagSet g t ↔ ∃ k c, g.rep.lookup k = some c ∧ t ∈ c.attrs.tags ∧ x ∈ k
  keys : ∀ t, (dget g.tagCls t).isSome → ∃ x, x ∈ tagSet g t
  nodup : (g.tagCls.map Prod.fst).Nodup
  types : ∀ t, t ∈ g.types ↔ ∃ k c, g.rep.lookup k = some c ∧ ∃ v ∈ c.getVariants, v.type = t

/-- No reference has an empty identifier, or nothing is forced. -/
def NoEmptyId (force : Bool) (m : RefManager) : Prop := force = true → (dget m.refs "").isSome = false

variable {db : UniDb} {strict force : Bool} {m : RefManager} {g : LGR}

theorem known_words (he : NoEmptyId force m) {o : Opts} (hf : o.force = force) (hm : g.refs = m)
    (hw : Words o.ref) (hr : o.force = false → RefsOk g o) : Words (knownRefs g o) := by
  cases hfc : o.force with
  | false =>
    have : knownRefs g o = o.ref := by
      unfold knownRefs
      rw [List.filter_eq_self]
      exact (hr hfc).1
    rw [this]; exact hw
  | true =>
    refine words_filter hw.1 ?_
    rw [hm]
    exact he (hf ▸ hfc)

/-- The attributes of an entry that was added. -/
theorem attrs_readable (he : NoEmptyId force m) (hm : g.refs = m) {a : XAttrs} (ha : AttrsOk a) {s : Seq}
    {rg : Option (Nat × Nat)} (hs : Allowed db strict s)
    (hst : force = false → Strict g (optsOf force a) ∧ StrictTags s (optsOf force a)) :
    Readable db strict force m
      { cp := s, range := rg,
        attrs := { comment := dget a "comment", refs := knownRefs g (optsOf force a), tags := getList a "tag",
                   whenR := dget a "when", notWhenR := dget a "not-when" } } := by
  have hmem : ∀ i ∈ knownRefs g (optsOf force a), i ∈ getList a "ref" ∧ (dget m.refs i).isSome = true := by
    intro i hi
    have := List.mem_filter.1 hi
    rw [hm] at this
    exact this
  refine ⟨hs, fun i hi => (hmem i hi).2, ?_, words_split _, ?_, fun hf => ?_, ?_⟩
  · exact known_words he (o := optsOf force a) rfl hm (words_split _) (fun hf => (hst hf).1.2)
  · intro t ht
    unfold texts at ht
    rw [fresh_noVars] at ht
    simp only [List.flatMap_nil, List.append_nil, List.mem_append, Option.mem_toList] at ht
    rcases ht with (((h | h) | h) | h) | h
    · exact dget_ok ha h
    · exact dget_ok ha h
    · exact dget_ok ha h
    · exact getList_ok ha _ t (hmem t h).1
    · exact getList_ok ha _ t h
  · obtain ⟨⟨h1, h2⟩, h3, h4⟩ := hst hf
    exact ⟨h1, h2.2.filter _, h3, h4⟩
  · rw [fresh_noVars]; simp

theorem keys_addToTags (s : Seq) (hs : s ≠ []) (tags : List String) (cls : List (String × List Nat))
    (h : ∀ t l, dget cls t = some l → l ≠ []) : ∀ t l, dget (addToTags cls s tags) t = some l → l ≠ [] := by
  unfold addToTags
  induction tags generalizing cls with
  | nil => exact h
  | cons u tags ih =>
    refine ih _ ?_
    intro t l hl
    rw [dget_dset] at hl
    split at hl
    · rw [← Option.some.inj hl]
      obtain ⟨x, hx⟩ := List.exists_mem_of_ne_nil _ hs
      exact List.ne_nil_of_mem (mem_addAll.2 (.inr hx))
    · exact h t l hl

theorem keys_iff : (∀ t, (dget g.tagCls t).isSome → ∃ x, x ∈ tagSet g t) ↔
    ∀ t l, dget g.tagCls t = some l → l ≠ [] := by
  unfold tagSet
  constructor
  · intro h t l hl hnil
    obtain ⟨x, hx⟩ := h t (by rw [hl]; rfl)
    rw [hl, hnil] at hx
    simp at hx
  · intro h t ht
    obtain ⟨l, hl⟩ := Option.isSome_iff_exists.1 ht
    rw [hl]
    exact List.exists_mem_of_ne_nil _ (h t l hl)

theorem good_addCp (he : NoEmptyId force m) (h : Good db strict force m g) {a : XAttrs} (ha : AttrsOk a)
    (cp : Seq) : Good db strict force m (g.addCp db (.seq cp) (optsOf force a)).1 := by
  cases ho : (g.addCp db (.seq cp) (optsOf force a)).2 with
  | error e => rw [C02.add_cp_atomic db g _ _ e ho]; exact h
  | ok u =>
    obtain ⟨s, hd, hn, hl, hr, ht, hrf, hty, hri⟩ := C50.add_cp_effect db g _ _ ho
    obtain ⟨s', hd', hi, -, -, hst⟩ := (C50.add_cp_ok_iff db g _ _).1 ho
    have hss : s' = s := by cases hd; cases hd'; rfl
    subst hss
    have hne : s' ≠ [] := denotes_ne hd
    have hkeys : ∀ t l, dget (g.addCp db (.seq cp) (optsOf force a)).1.tagCls t = some l → l ≠ [] := by
      have h0 := keys_iff.1 h.keys
      unfold LGR.addCp
      split
      · exact h0
      · rename_i s1 a1 hc
        split
        · exact h0
        · exact keys_addToTags _ (denotes_ne (addCpChecks_ok.1 hc).1) _ _ h0
    refine ⟨by rw [hrf, h.refs], by rw [hri, h.raises], ⟨?_, ?_⟩, intact_addCp db g h.intact _ _, ?_, keys_iff.2 hkeys,
      keys_addCp h.nodup _ _, ?_⟩
    · exact (inv_addCp (P := fun _ => True) ⟨h.inv.wf, fun _ _ _ => trivial⟩ (fun _ _ _ _ => trivial)).wf
    · intro k c hk
      rw [hl] at hk
      split at hk
      · rw [← Option.some.inj hk]
        exact attrs_readable he h.refs ha (by rw [← h.raises]; exact hi) hst
      · exact h.inv.all k c hk
    · intro t x
      rw [ht, h.tags]
      constructor
      · rintro (⟨k, c, h1, h2, h3⟩ | ⟨h1, h2⟩)
        · refine ⟨k, c, ?_, h2, h3⟩
          rw [hl, if_neg, h1]
          rintro rfl; rw [hn] at h1; cases h1
        · exact ⟨s', _, by rw [hl, if_pos rfl], h1, h2⟩
      · rintro ⟨k, c, h1, h2, h3⟩
        rw [hl] at h1
        split at h1
        · rename_i hk
          subst hk
          rw [← Option.some.inj h1] at h2
          exact .inr ⟨h2, h3⟩
        · exact .inl ⟨k, c, h1, h2, h3⟩
    · intro t
      rw [hty, h.types]
      constructor
      · rintro ⟨k, c, h1, h2⟩
        refine ⟨k, c, ?_, h2⟩
        rw [hl, if_neg, h1]
        rintro rfl; rw [hn] at h1; cases h1
      · rintro ⟨k, c, h1, v, h2, h3⟩
        rw [hl] at h1
        split at h1
        · rw [← Option.some.inj h1, fresh_noVars] at h2
          simp at h2
        · exact ⟨k, c, h1, v, h2, h3⟩

/-- When `add_range` raises, either this ends the reading or nothing has been added. -/
def Safe (db : UniDb) (strict force : Bool) : Prop := force = false ∨ strict = true ∨ db = none

theorem keys_foldTags (tags : List String) (cps : List Nat) (cls : List (String × List Nat))
    (h : ∀ t l, dget cls t = some l → l ≠ []) :
    ∀ t l, dget (cps.foldl (fun t x => addToTags t [x] tags) cls) t = some l → l ≠ [] := by
  induction cps generalizing cls with
  | nil => exact h
  | cons c cps ih => exact ih _ (keys_addToTags [c] (by simp) tags cls h)

theorem good_addRange (he : NoEmptyId force m) (h : Good db strict force m g) {a : XAttrs} (ha : AttrsOk a)
    (f l : Nat) (ho : (g.addRange db f l (optsOf force a)).2 = .ok ()) :
    Good db strict force m (g.addRange db f l (optsOf force a)).1 := by
  have hw := h.inv.wf
  have hok := ((add_range_ok_iff db g hw f l _).1 ho).2.2.2
  have hint := intact_addRange db g hw h.intact f l _ ho
  have hwf := (inv_addRangeL (db := db) (g := g) (f := f) (l := l) (o := optsOf force a) (P := fun _ => True)
    ⟨hw, fun _ _ _ => trivial⟩ (fun _ _ => trivial) (fun _ _ _ _ => trivial)).wf
  have hnd := keys_addRange (db := db) h.nodup f l (optsOf force a)
  obtain ⟨-, rs, hsep, hcov, hin, hout, hr, ht, hrf, hty, hri, -⟩ := add_range_exact db g hw f l _ ho
  have hkeys : ∀ t l', dget (g.addRange db f l (optsOf force a)).1.tagCls t = some l' → l' ≠ [] := by
    have h0 := keys_iff.1 h.keys
    rcases C04.addRange_cases db g f l (optsOf force a) with ⟨e, he, _⟩ | ⟨cps, hp, he⟩
    · rw [he]; exact h0
    · rw [he]
      split
      · exact h0
      · exact keys_foldTags _ cps _ h0
  generalize (g.addRange db f l (optsOf force a)).1 = g' at *
  have hold : ∀ k c, g.rep.lookup k = some c → g'.rep.lookup k = some c := by
    intro k c hk
    rw [hout, hk]
    intro x hx hkx
    subst hkx
    have := ((hcov x).1 hx).2.2.1
    rw [hk] at this; simp at this
  have hnew : ∀ k c, g'.rep.lookup k = some c → g.rep.lookup k = some c ∨
      ∃ x p, C05.Covers rs x ∧ k = [x] ∧
        c = { cp := [x], range := p, attrs := ⟨dget a "comment", knownRefs g (optsOf force a), getList a "tag", dget a "when", dget a "not-when"⟩ } := by
    intro k c hk
    by_cases hc : ∃ x, C05.Covers rs x ∧ k = [x]
    · obtain ⟨x, ⟨q, hq, h1, h2⟩, rfl⟩ := hc
      rw [hin q hq x h1 h2] at hk
      exact .inr ⟨x, _, ⟨q, hq, h1, h2⟩, rfl, (Option.some.inj hk).symm⟩
    · rw [hout k (fun x hx hkx => hc ⟨x, hx, hkx⟩)] at hk
      exact .inl hk
  refine ⟨by rw [hrf, h.refs], by rw [hri, h.raises], ⟨hwf, ?_⟩, hint, ?_, keys_iff.2 hkeys, hnd, ?_⟩
  · intro k c hk
    rcases hnew k c hk with hk | ⟨x, p, hx, rfl, rfl⟩
    · exact h.inv.all k c hk
    · refine attrs_readable he h.refs ha ?_ ?_
      · intro hs valid hv y hy
        simp only [List.mem_singleton] at hy
        subst hy
        rcases ((hcov y).1 hx).2.2.2 with h1 | h1
        · exact h1 valid hv
        · rw [h.raises, hs] at h1; cases h1
      · intro hf
        have hoo : (optsOf force a).force = false := hf
        rw [hoo] at hok
        exact ⟨hok.1.1, hok.1.2, .inr rfl⟩
  · intro t x
    rw [ht, h.tags]
    constructor
    · rintro (⟨k, c, h1, h2, h3⟩ | ⟨h1, q, hq, h2, h3⟩)
      · exact ⟨k, c, hold k c h1, h2, h3⟩
      · exact ⟨[x], _, hin q hq x h2 h3, h1, by simp⟩
    · rintro ⟨k, c, h1, h2, h3⟩
      rcases hnew k c h1 with h1 | ⟨y, p, hy, rfl, rfl⟩
      · exact .inl ⟨k, c, h1, h2, h3⟩
      · simp only [List.mem_singleton] at h3
        subst h3
        exact .inr ⟨h2, hy⟩
  · intro t
    rw [hty, h.types]
    constructor
    · rintro ⟨k, c, h1, h2⟩
      exact ⟨k, c, hold k c h1, h2⟩
    · rintro ⟨k, c, h1, v, h2, h3⟩
      rcases hnew k c h1 with h1 | ⟨y, p, hy, rfl, rfl⟩
      · exact ⟨k, c, h1, v, h2, h3⟩
      · rw [fresh_noVars] at h2; simp at h2

theorem good_addVariant (he : NoEmptyId force m) (h : Good db strict force m g) {a : XAttrs} (ha : AttrsOk a)
    (cp v : Seq) : Good db strict force m (g.addVariant db (.seq cp) (.seq v) (dget a "type") (varOptsOf force a)).1 := by
  cases ho : (g.addVariant db (.seq cp) (.seq v) (dget a "type") (varOptsOf force a)).2 with
  | error e => rw [C02.add_variant_atomic db g _ _ _ _ e ho]; exact h
  | ok u =>
    have hw := h.inv.wf
    have hwf := (inv_addVariant (db := db) (g := g) (arg := .seq cp) (var := .seq v) (t := dget a "type")
      (o := varOptsOf force a) (P := fun _ => True) ⟨hw, fun _ _ _ => trivial⟩ (fun _ _ _ _ _ _ _ _ _ => trivial)).wf
    obtain ⟨s, w, c, hd1, -, hd2, hi, -, hlk, -, -, hst⟩ := (add_variant_ok_iff db g hw _ _ _ _).1 ho
    obtain ⟨s', w', c1, c', hd1', hd2', hlk', hc1, hcp, hc2, hat, hv, hl, hr, hty, htg, hrf, hri⟩ :=
      add_variant_effect db g hw _ _ _ _ ho
    have e1 : s' = s := by cases hd1; cases hd1'; rfl
    have e2 : w' = w := by cases hd2; cases hd2'; rfl
    subst e1 e2
    clear hlk
    have hint : Intact (g.addVariant db (.seq cp) (.seq v) (dget a "type") (varOptsOf force a)).1.rep :=
      intact_change h.intact (s := s') (oc := some c') (by rw [hlk']; rintro _ ⟨⟩; exact hc1)
        (by rintro _ ⟨⟩; exact hc2) hl hr
    generalize (g.addVariant db (.seq cp) (.seq v) (dget a "type") (varOptsOf force a)).1 = g' at *
    have hnv : ∀ x ∈ c'.getVariants, x ∈ c1.getVariants ∨
        x = ⟨w', dget a "type", dget a "when", dget a "not-when", dget a "comment", knownRefs g (varOptsOf force a)⟩ :=
      fun x hx => (hv x).1 hx
    have hmem : ∀ i ∈ knownRefs g (varOptsOf force a), i ∈ getList a "ref" ∧ (dget m.refs i).isSome = true := by
      intro i hi
      have := List.mem_filter.1 hi
      rw [h.refs] at this
      exact this
    refine ⟨by rw [hrf, h.refs], by rw [hri, h.raises], ⟨hwf, ?_⟩, hint, ?_,
      by unfold tagSet; rw [htg]; exact h.keys, by rw [htg]; exact h.nodup, ?_⟩
    · intro k d hk
      rw [hl] at hk
      split at hk
      · rw [← Option.some.inj hk]
        have hR := h.inv.all _ _ hlk'
        have hcpe : c'.cp = c1.cp := by rw [hcp]; exact (lookup_cp hlk').symm
        refine ⟨by rw [hcpe]; exact hR.allowed, by rw [hat]; exact hR.refs, by rw [hat]; exact hR.refWords,
          by rw [hat]; exact hR.tagWords, ?_, by rw [hat, hcpe]; exact hR.plain, ?_⟩
        · intro t ht
          unfold texts at ht
          rw [hat, List.mem_append] at ht
          rcases ht with ht | ht
          · exact hR.xml t (List.mem_append.2 (.inl ht))
          · obtain ⟨x, hx, ht⟩ := List.mem_flatMap.1 ht
            rcases hnv x hx with hx | rfl
            · exact hR.xml t (List.mem_append.2 (.inr (List.mem_flatMap.2 ⟨x, hx, ht⟩)))
            · simp only [varTexts, List.mem_append, Option.mem_toList] at ht
              rcases ht with (((ht | ht) | ht) | ht) | ht
              · exact dget_ok ha ht
              · exact dget_ok ha ht
              · exact dget_ok ha ht
              · exact dget_ok ha ht
              · exact getList_ok ha _ t (hmem t ht).1
        · intro x hx
          rcases hnv x hx with hx | rfl
          · exact hR.vars x hx
          · refine ⟨by rw [← h.raises]; exact hi, fun i hi => (hmem i hi).2, ?_, fun hf => ?_⟩
            · exact known_words he (o := varOptsOf force a) rfl h.refs (words_split _) (fun hf => (hst hf).2)
            · exact ⟨(hst hf).1, (hst hf).2.2.filter _⟩
      · exact h.inv.all k d hk
    · intro t x
      unfold tagSet
      rw [htg]
      refine (h.tags t x).trans ?_
      constructor
      · rintro ⟨k, d, h1, h2, h3⟩
        by_cases hk : k = s'
        · subst hk
          rw [hlk'] at h1
          cases h1
          exact ⟨k, c', by rw [hl, if_pos rfl], by rw [hat]; exact h2, h3⟩
        · exact ⟨k, d, by rw [hl, if_neg hk]; exact h1, h2, h3⟩
      · rintro ⟨k, d, h1, h2, h3⟩
        rw [hl] at h1
        split at h1
        · rename_i hk
          subst hk
          cases h1
          exact ⟨k, c1, hlk', by rw [← hat]; exact h2, h3⟩
        · exact ⟨k, d, h1, h2, h3⟩
    · intro t
      rw [hty, h.types]
      constructor
      · rintro (⟨k, d, h1, x, h2, h3⟩ | rfl)
        · by_cases hk : k = s'
          · subst hk
            rw [hlk'] at h1
            cases h1
            exact ⟨k, c', by rw [hl, if_pos rfl], x, (hv x).2 (.inl h2), h3⟩
          · exact ⟨k, d, by rw [hl, if_neg hk]; exact h1, x, h2, h3⟩
        · exact ⟨s', c', by rw [hl, if_pos rfl], _, (hv _).2 (.inr rfl), rfl⟩
      · rintro ⟨k, d, h1, x, h2, h3⟩
        rw [hl] at h1
        split at h1
        · rename_i hk
          subst hk
          cases h1
          rcases hnv x h2 with h2 | rfl
          · exact .inl ⟨k, c1, hlk', x, h2, h3⟩
          · exact .inr h3.symm
        · exact .inl ⟨k, d, h1, x, h2, h3⟩

/-! ## The section -/

theorem guard_ok {s s' : PState} {r : LGR × Except Err Unit} (h : guard force s r = (s', .ok ())) :
    s'.lgr = r.1 ∧ (r.2 = .ok () ∨ force = true) := by
  obtain ⟨g, o⟩ := r
  cases o with
  | ok u => simp only [Xml.guard, Prod.mk.injEq] at h; rw [← h.1]; exact ⟨rfl, .inl rfl⟩
  | error e =>
    unfold Xml.guard at h
    dsimp only at h
    split at h
    · simp only [Prod.mk.injEq] at h
      obtain ⟨rfl, h⟩ := h
      cases force with
      | true => exact ⟨rfl, .inr rfl⟩
      | false => cases h
    · simp at h

theorem orderCheck_lgr (s : PState) (cp : Seq) : (orderCheck s cp).lgr = s.lgr := by
  unfold orderCheck
  dsimp only
  split
  · split <;> rfl
  · rfl

/-- The strings of the element and of its variants. -/
def ElemOk (e : Elem) : Prop := AttrsOk e.attrs ∧ ∀ a ∈ e.vars, AttrsOk a

theorem good_vars (he : NoEmptyId force m) (cp : Seq) : ∀ (vs : List XAttrs) {s s' : PState},
    Good db strict force m s.lgr → (∀ a ∈ vs, AttrsOk a) → forEach (parseVar db force cp) s vs = (s', .ok ()) →
    Good db strict force m s'.lgr
  | [], s, s', h, _, hf => by
    simp only [forEach, Prod.mk.injEq] at hf
    rw [← hf.1]; exact h
  | a :: vs, s, s', h, ha, hf => by
    simp only [forEach] at hf
    cases hp : parseVar db force cp s a with
    | mk s1 o =>
      rw [hp] at hf
      cases o with
      | error e => simp at hf
      | ok u =>
        refine good_vars he cp vs ?_ (fun b hb => ha b (List.mem_cons_of_mem _ hb)) hf
        unfold parseVar at hp
        split at hp
        · simp at hp
        · rw [(guard_ok hp).1]
          exact good_addVariant he h (ha a (by simp)) _ _

theorem good_elem (he : NoEmptyId force m) (hs : Safe db strict force) {s s' : PState} {e : Elem}
    (h : Good db strict force m s.lgr) (ha : ElemOk e) (hf : parseElem db force s e = (s', .ok ())) :
    Good db strict force m s'.lgr := by
  unfold parseElem at hf
  by_cases h1 : e.tag = "char"
  · rw [if_pos h1] at hf
    split at hf
    · simp at hf
    · rename_i cp hcp
      dsimp only at hf
      cases hg : guard force (orderCheck s cp) ((orderCheck s cp).lgr.addCp db (.seq cp) (optsOf force e.attrs)) with
      | mk s2 o =>
        rw [hg] at hf
        cases o with
        | error er => simp at hf
        | ok u =>
          refine good_vars he cp e.vars ?_ ha.2 hf
          rw [(guard_ok hg).1, orderCheck_lgr]
          exact good_addCp he h ha.1 cp
  · rw [if_neg h1] at hf
    by_cases h2 : e.tag = "range"
    · rw [if_pos h2] at hf
      split at hf
      · simp at hf
      · rename_i f _
        split at hf
        · simp at hf
        · rename_i l _
          obtain ⟨g1, g2⟩ := guard_ok hf
          rw [g1]
          cases ho : (s.lgr.addRange db f l (optsOf force e.attrs)).2 with
          | ok u => exact good_addRange he h ha.1 f l ho
          | error er =>
            rw [ho] at g2
            have hft : force = true := by
              rcases g2 with h | h
              · cases h
              · exact h
            rw [add_range_atomic_strict db s.lgr h.inv.wf f l _ ?_ (.inl rfl) er ho]
            · exact h
            · rw [h.raises]
              rcases hs with hs | hs | hs
              · rw [hft] at hs; cases hs
              · exact .inl hs
              · exact .inr hs
    · rw [if_neg h2] at hf
      simp only [Prod.mk.injEq] at hf
      rw [← hf.1]; exact h

theorem good_elems (he : NoEmptyId force m) (hs : Safe db strict force) : ∀ (es : List Elem) {s s' : PState},
    Good db strict force m s.lgr → (∀ e ∈ es, ElemOk e) → forEach (parseElem db force) s es = (s', .ok ()) →
    Good db strict force m s'.lgr
  | [], s, s', h, _, hf => by
    simp only [forEach, Prod.mk.injEq] at hf
    rw [← hf.1]; exact h
  | e :: es, s, s', h, ha, hf => by
    simp only [forEach] at hf
    cases hp : parseElem db force s e with
    | mk s1 o =>
      rw [hp] at hf
      cases o with
      | error e => simp at hf
      | ok u =>
        exact good_elems he hs es (good_elem he hs h (ha e (by simp)) hp)
          (fun b hb => ha b (List.mem_cons_of_mem _ hb)) hf

theorem good_new (m : RefManager) : Good db strict force m { refs := m, raiseInvalid := strict } := by
  have hl : ∀ k c, ({} : Repertoire).lookup k ≠ some c := by
    intro k c hk
    cases k <;> simp [lookup, bucket, dget] at hk
  refine ⟨rfl, rfl, ⟨wf_empty, fun k c hk => absurd hk (hl k c)⟩, ⟨by simp, fun k c p hk => absurd hk (hl k c), by simp⟩,
    fun t x => ?_, by simp [dget], by simp, fun t => ?_⟩
  · constructor
    · intro hx; simp [tagSet, dget] at hx
    · rintro ⟨k, c, hk, -⟩; exact absurd hk (hl k c)
  · constructor
    · intro hx; simp at hx
    · rintro ⟨k, c, hk, -⟩; exact absurd hk (hl k c)

/-- Whatever the parser reads from a data section, without raising, can be written and read again. -/
theorem good_data (he : NoEmptyId force m) (hs : Safe db strict force) {cs : Rfc7940.Results} {pv : Seq}
    {es : List Elem} (ha : ∀ e ∈ es, ElemOk e) {s' : PState}
    (h : parseData db force { lgr := { refs := m, raiseInvalid := strict }, checks := cs, prev := pv } es = (s', .ok ())) :
    Good db strict force m s'.lgr := by
  unfold parseData at h
  cases hf : forEach (parseElem db force)
      { lgr := { refs := m, raiseInvalid := strict }, checks := cs, prev := [] } es with
  | mk s1 o =>
    rw [hf] at h
    cases o with
    | error e => simp at h
    | ok u =>
      simp only [Prod.mk.injEq] at h
      rw [← h.1]
      have := good_elems he hs es (good_new m) ha hf
      exact this

end Lgr.Props.C104

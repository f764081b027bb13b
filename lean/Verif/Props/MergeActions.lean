import Verif.Props.MergeMeaning

/-!
# C117, C118: the elements of the merged section
-/

namespace Lgr.Props.C117
open Lgr Compare MergeSet RulesXml MergeXml C101 C102 C103 C42 C63

/-! ## Replacing a text that occurs once -/

/-- The word occurs at one place only. -/
def Once (m t : Txt) : Prop := ∀ a b a' b', t = a ++ m ++ b → t = a' ++ m ++ b' → a = a'

theorem replaceGo_skip {old new s1 s2 : Txt} : replaceGo old new s1.length (s1 ++ s2) = replaceGo old new 0 s2 := by
  induction s1 with
  | nil => rfl
  | cons c s1 ih => rw [List.length_cons, List.cons_append, replaceGo, ih]

theorem replaceGo_none {old new s : Txt} (h : ∀ a b, s ≠ a ++ old ++ b) : replaceGo old new 0 s = s := by
  induction s with
  | nil => rfl
  | cons c s ih =>
    have h1 : ¬ old <+: c :: s := by
      rintro ⟨b, hb⟩
      exact h [] b (by simpa using hb.symm)
    rw [replaceGo, if_neg h1, ih]
    intro a b e
    exact h (c :: a) b (by rw [e]; rfl)

theorem replaceGo_once {old new : Txt} (h0 : old ≠ []) (b : Txt) : ∀ a, Once old (a ++ old ++ b) →
    replaceGo old new 0 (a ++ old ++ b) = a ++ new ++ b := by
  intro a
  induction a with
  | nil =>
    intro h
    obtain ⟨c, old', rfl⟩ := List.exists_cons_of_ne_nil h0
    rw [List.nil_append, List.cons_append, replaceGo, if_pos (by rw [← List.cons_append]; exact List.prefix_append _ _)]
    rw [show (c :: old').length - 1 = old'.length from rfl, replaceGo_skip, replaceGo_none]
    · simp
    · intro a b' e
      have := h [] b ((c :: old') ++ a) b' (by simp) (by rw [e]; simp)
      simp at this
  | cons c a ih =>
    intro h
    have h1 : ¬ old <+: c :: (a ++ old ++ b) := by
      rintro ⟨r, hr⟩
      have := h [] r (c :: a) b (by simpa using hr.symm) rfl
      simp at this
    rw [List.cons_append, List.cons_append, replaceGo, if_neg h1, ih]
    · rfl
    · intro x y x' y' e e'
      have := h (c :: x) y (c :: x') y' (by simp [e]) (by simp [e'])
      simpa using this

/-! ## Actions -/

/-- The attributes of an action. -/
def inAct (script : String) (refs : List String) (k v : String) : String :=
  if k = "match" ∨ k = "not-match" then
    (if v = "" then v else if v = lcm then "Common-" ++ lcm else script ++ "-" ++ v)
  else if k = "ref" then refsTo refs v
  else v

/-- An action element whose text is not ambiguous: the name of the rule occurs only once in it. -/
structure ActWritten (n : Node) : Prop where
  written : Written n
  flat : n.children = []
  keys : (n.attrs.map Prod.fst).Nodup
  once : ∀ k, k = "match" ∨ k = "not-match" → ∀ m, dget n.attrs k = some m → m ≠ "" → Clean m ∧ Once m.toList (render n)

theorem dget_split {attrs : Xml.XAttrs} {k v : String} (hn : (attrs.map Prod.fst).Nodup) (h : dget attrs k = some v) :
    ∃ a b, attrs = a ++ (k, v) :: b ∧ (∀ p ∈ a, p.1 ≠ k) ∧ ∀ p ∈ b, p.1 ≠ k := by
  induction attrs with
  | nil => cases h
  | cons p attrs ih =>
    obtain ⟨k', v'⟩ := p
    rw [List.map_cons, List.nodup_cons] at hn
    rw [dget] at h
    by_cases hk : k' = k
    · subst hk
      rw [if_pos rfl] at h
      cases h
      refine ⟨[], attrs, rfl, by simp, ?_⟩
      intro q hq e
      exact hn.1 (List.mem_map.2 ⟨q, hq, e⟩)
    · rw [if_neg hk] at h
      obtain ⟨a, b, rfl, h1, h2⟩ := ih hn.2 h
      refine ⟨(k', v') :: a, b, rfl, ?_, h2⟩
      intro q hq
      rcases List.mem_cons.1 hq with rfl | hq
      · exact hk
      · exact h1 q hq

/-- Replacing the name of the rule changes the attribute. -/
theorem replace_render {n : Node} {k m m' : String} (hch : n.children = []) (hk : (n.attrs.map Prod.fst).Nodup)
    (hm : dget n.attrs k = some m) (h0 : m ≠ "") (hc : Clean m) (hc' : Clean m') (ho : Once m.toList (render n)) :
    replace m m' (render n) = render (mapNode (onKey k (fun _ => m')) n) := by
  obtain ⟨tag, attrs, text, children⟩ := n
  simp only [Node.children, Node.attrs] at hch hk hm
  subst hch
  obtain ⟨a, b, rfl, ha, hb⟩ := dget_split hk hm
  have hmap : ∀ l : Xml.XAttrs, (∀ p ∈ l, p.1 ≠ k) → l.map (fun p => (p.1, onKey k (fun _ => m') p.1 p.2)) = l := by
    intro l hl
    conv_rhs => rw [← List.map_id l]
    refine List.map_congr_left (fun p hp => ?_)
    simp only [onKey, if_neg (hl p hp), id]
  have e1 : ∃ x y, ∀ v, Clean v → render (.mk tag (a ++ (k, v) :: b) text []) = x ++ v.toList ++ y := by
    refine ⟨'<' :: tag.toList ++ a.flatMap renderAttr ++ (' ' :: k.toList ++ ['=', '"']),
      ['"'] ++ b.flatMap renderAttr ++ (if ([] : List Node).isEmpty ∧ text.isNone then ['/', '>']
     else '>' :: (text.getD "").toList.flatMap escT ++ renders [] ++ ['<', '/'] ++ tag.toList ++ ['>']), ?_⟩
    intro v hv
    rw [render, List.flatMap_append, List.flatMap_cons, renderAttr, clean_esc hv]
    simp only [List.append_assoc, List.cons_append, List.nil_append]
  obtain ⟨x, y, e⟩ := e1
  rw [mapNode, List.map_append, List.map_cons, hmap a ha, hmap b hb]
  have e2 : onKey k (fun _ => m') k m = m' := by simp [onKey]
  dsimp only
  rw [e2, show mapNodes (onKey k fun _ => m') [] = [] from rfl, e m' hc', e m hc]
  rw [e m hc] at ho
  unfold replace
  exact replaceGo_once (fun h => h0 (nonempty.1 h)) y x ho

theorem clean_ruleName {script m : String} (hs : Clean script) (hm : Clean m) : Clean (ruleName script m) := by
  rw [ruleName_eq]
  split
  · unfold Clean; decide
  · exact clean_pre hs hm

theorem attr_match {k : String} (hk : k = "match" ∨ k = "not-match") {v v' : String} (h : Attr k v) (he : Ends v') :
    Attr k v' := by
  refine ⟨h.quote, he, h.apart, h.ref, fun hn => ?_⟩
  rcases hk with rfl | rfl <;> exact absurd hn (by decide)

theorem ends_ruleName {script m : String} (he : Ends m) (h0 : m ≠ "") : Ends (ruleName script m) := by
  rw [ruleName_eq]
  split
  · unfold Ends; decide
  · exact ends_pre he h0

/-- One of the two replacements. -/
theorem act_step {script : String} (hs : Clean script) {n : Node} (hn : ActWritten n) {k m : String}
    (hk : k = "match" ∨ k = "not-match") (hm : dget n.attrs k = some m) (h0 : m ≠ "") :
    replace m (ruleName script m) (render n) = render (mapNode (onKey k (fun _ => ruleName script m)) n) ∧
      Written (mapNode (onKey k (fun _ => ruleName script m)) n) := by
  obtain ⟨h1, h2⟩ := hn.once k hk m hm h0
  refine ⟨replace_render hn.flat hn.keys hm h0 h1 (clean_ruleName hs h1) h2, marks_map n hn.written.1, ?_⟩
  have hmem : ∀ p ∈ n.attrs, p.1 = k → p.2 = m := by
    obtain ⟨a, b, e, ha, hb⟩ := dget_split hn.keys hm
    intro p hp hpk
    rw [e, List.mem_append, List.mem_cons] at hp
    rcases hp with hp | rfl | hp
    · exact absurd hpk (ha p hp)
    · rfl
    · exact absurd hpk (hb p hp)
  have hem : Ends m := by
    obtain ⟨a, b, e, -, -⟩ := dget_split hn.keys hm
    exact (hn.written.2 n .self (k, m) (by rw [e]; simp)).ends
  have ha := hn.written.2
  obtain ⟨tag, attrs, text, children⟩ := n
  have hf : children = [] := hn.flat
  subst hf
  rw [attrs_iff] at ha
  rw [mapNode, attrs_iff]
  refine ⟨?_, by intro c hc; cases hc⟩
  intro p hp
  rw [List.mem_map] at hp
  obtain ⟨q, hq, rfl⟩ := hp
  have hq' := ha.1 q hq
  dsimp only
  unfold onKey
  split
  · rename_i e
    rw [e] at hq' ⊢
    exact attr_match hk hq' (ends_ruleName hem h0)
  · exact hq'

theorem parse_action_inv {n : Node} {a : Action} (h : parseAction n = .ok a) :
    a.disp = (dget n.attrs "disp").getD "" ∧ a.comment = dget n.attrs "comment" ∧ a.refs = Xml.getList n.attrs "ref" ∧
    a.matchR = dget n.attrs "match" ∧ a.notMatchR = dget n.attrs "not-match" ∧
    a.anyVariant = Xml.getList n.attrs "any-variant" ∧ a.allVariants = Xml.getList n.attrs "all-variants" ∧
    a.onlyVariants = Xml.getList n.attrs "only-variants" ∧ ¬ (a.matchR ≠ none ∧ a.notMatchR ≠ none) := by
  unfold parseAction Action.mk? at h
  split at h
  · cases h
  · rename_i hn
    cases h
    exact ⟨rfl, rfl, rfl, rfl, rfl, rfl, rfl, rfl, hn⟩

theorem map_same : ∀ n : Node, mapNode (fun _ v => v) n = n := by
  apply node_ind
  intro tag attrs text children ih
  rw [mapNode, mapNodes_eq]
  congr 1
  · simp
  · conv_rhs => rw [← List.map_id children]
    exact List.map_congr_left (fun c hc => ih c hc)

/-- The text of an action after the renaming is that of the element with the names changed. -/
theorem act_text {script : String} {refs : List String} {n : Node} {a : Action} (hs : Clean script)
    (hc : Clean (" ".intercalate refs)) (he : Ends (" ".intercalate refs)) (hn : ActWritten n)
    (hp : parseAction n = .ok a) :
    subRefs refs (renameAction a (render n) script).2 = render (mapNode (inAct script refs) n) := by
  obtain ⟨-, -, -, h1, h2, -, -, -, hx⟩ := parse_action_inv hp
  have fin : ∀ {m : Node} {f : String → String → String}, Written m → m = mapNode f n →
      (∀ p ∈ n.attrs, onKey "ref" (refsTo refs) p.1 (f p.1 p.2) = inAct script refs p.1 p.2) →
      subRefs refs (render m) = render (mapNode (inAct script refs) n) := by
    rintro m f hm rfl hf
    rw [(step_refs hc he hm).1, map_map]
    have hfl := hn.flat
    obtain ⟨tag, attrs, text, children⟩ := n
    change children = [] at hfl
    subst hfl
    rw [mapNode, mapNode]
    congr 2
    exact List.map_congr_left (fun p hp => by rw [hf p hp])
  have val : ∀ k m, (k = "match" ∨ k = "not-match") → dget n.attrs k = some m → ∀ p ∈ n.attrs, p.1 = k → p.2 = m := by
    intro k m hk hm p hp hpk
    obtain ⟨a, b, e, ha, hb⟩ := dget_split hn.keys hm
    rw [e, List.mem_append, List.mem_cons] at hp
    rcases hp with hp | rfl | hp
    · exact absurd hpk (ha p hp)
    · rfl
    · exact absurd hpk (hb p hp)
  have absent : ∀ k, dget n.attrs k = none → ∀ p ∈ n.attrs, p.1 ≠ k := by
    intro k hk p hp e
    have := dget_eq_none.1 hk
    exact this (e ▸ List.mem_map_of_mem hp)
  have idle : ∀ p : String × String, p.1 ≠ "match" ∨ p.2 = "" → p.1 ≠ "not-match" ∨ p.2 = "" →
      onKey "ref" (refsTo refs) p.1 p.2 = inAct script refs p.1 p.2 := by
    intro p q1 q2
    unfold onKey inAct
    by_cases e1 : p.1 = "match" ∨ p.1 = "not-match"
    · have : p.2 = "" := by
        rcases e1 with e1 | e1
        · exact q1.resolve_left (fun h => h e1)
        · exact q2.resolve_left (fun h => h e1)
      rw [if_pos e1, if_pos this]
      rcases e1 with e1 | e1 <;> rw [e1, if_neg (by decide)]
    · rw [if_neg e1]
  have busy : ∀ k m, (k = "match" ∨ k = "not-match") → m ≠ "" → ∀ p : String × String, p.1 = k → p.2 = m →
      onKey "ref" (refsTo refs) p.1 (onKey k (fun _ => ruleName script m) p.1 p.2) = inAct script refs p.1 p.2 := by
    rintro k m hk h0 p rfl rfl
    unfold onKey inAct
    rw [if_pos hk, if_pos rfl, if_neg h0, ruleName_eq]
    rcases hk with hk | hk <;> rw [hk, if_neg (by decide)]
  unfold renameAction
  cases hm : a.matchR with
  | some m =>
    have hnm : a.notMatchR = none := by
      by_contra hne
      exact hx ⟨by rw [hm]; simp, hne⟩
    rw [hnm]
    dsimp only
    rw [hm] at h1
    rw [hnm] at h2
    by_cases h0 : m = ""
    · rw [if_neg (by simpa using h0)]
      refine fin (f := fun k v => v) hn.written ?_ (fun p hp => idle p ?_ (.inl (absent _ h2.symm p hp)))
      · exact (map_same n).symm
      · by_cases e : p.1 = "match"
        · exact .inr ((val _ _ (.inl rfl) h1.symm p hp e).trans h0)
        · exact .inl e
    · rw [if_pos h0]
      dsimp only
      obtain ⟨s1, s2⟩ := act_step hs hn (.inl rfl) h1.symm h0
      rw [s1]
      refine fin s2 rfl (fun p hp => ?_)
      by_cases e : p.1 = "match"
      · exact busy _ _ (.inl rfl) h0 p e (val _ _ (.inl rfl) h1.symm p hp e)
      · rw [show onKey "match" (fun _ => ruleName script m) p.1 p.2 = p.2 by rw [onKey, if_neg e]]
        exact idle p (.inl e) (.inl (absent _ h2.symm p hp))
  | none =>
    dsimp only
    rw [hm] at h1
    cases hnm : a.notMatchR with
    | none =>
      dsimp only
      rw [hnm] at h2
      refine fin (f := fun k v => v) hn.written ?_
        (fun p hp => idle p (.inl (absent _ h1.symm p hp)) (.inl (absent _ h2.symm p hp)))
      exact (map_same n).symm
    | some m =>
      dsimp only
      rw [hnm] at h2
      by_cases h0 : m = ""
      · rw [if_neg (by simpa using h0)]
        refine fin (f := fun k v => v) hn.written ?_ (fun p hp => idle p (.inl (absent _ h1.symm p hp)) ?_)
        · exact (map_same n).symm
        · by_cases e : p.1 = "not-match"
          · exact .inr ((val _ _ (.inr rfl) h2.symm p hp e).trans h0)
          · exact .inl e
      · rw [if_pos h0]
        dsimp only
        obtain ⟨s1, s2⟩ := act_step hs hn (.inr rfl) h2.symm h0
        rw [s1]
        refine fin s2 rfl (fun p hp => ?_)
        by_cases e : p.1 = "not-match"
        · exact busy _ _ (.inr rfl) h0 p e (val _ _ (.inr rfl) h2.symm p hp e)
        · rw [show onKey "not-match" (fun _ => ruleName script m) p.1 p.2 = p.2 by rw [onKey, if_neg e]]
          exact idle p (.inl (absent _ h1.symm p hp)) (.inl e)

end Lgr.Props.C117

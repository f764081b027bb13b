import Verif.Props.MergeText

/-!
# C117: the elements after the renaming
-/

namespace Lgr.Props.C117
open Lgr Compare MergeSet RulesXml MergeXml C103

/-! ## How names are changed -/

def lcm : String := "leading-combining-mark"

/-- A tag. -/
def tagTo (script t : String) : String := if t = "" ∨ ':' ∈ t.toList then t else script ++ "-" ++ t

/-- A reference to a class in a class. -/
def clsTo (script c : String) : String := if c = "" then c else script ++ "-" ++ c

/-- A reference in a rule: the rule of the MSR is common to all, and what begins with its name is left. -/
def refTo (script r : String) : String :=
  if r = "" then r
  else if lcm.toList <+: r.toList then (if r = lcm then "Common-" ++ lcm else r)
  else if script ++ "-" ++ r = lcm then "Common-" ++ lcm
  else script ++ "-" ++ r

/-- The name of a rule. -/
def nameTo (script name v : String) : String :=
  if v = name then (if name = lcm then "Common-" ++ lcm else script ++ "-" ++ name) else v

/-- The references. -/
def refsTo (refs : List String) (v : String) : String := if v = "" then v else " ".intercalate refs

/-- The attributes of a rule and of what is inside. -/
def inRule (script name : String) (refs : List String) (k v : String) : String :=
  if k = "name" then nameTo script name v
  else if k = "by-ref" then refTo script v
  else if k = "from-tag" then tagTo script v
  else if k = "ref" then refsTo refs v
  else v

/-- The attributes of a class and of what is inside. -/
def inClass (script : String) (refs : List String) (k v : String) : String :=
  if k = "name" then tagTo script v
  else if k = "by-ref" then clsTo script v
  else if k = "from-tag" then tagTo script v
  else if k = "ref" then refsTo refs v
  else v

/-! ## Elements whose text is not ambiguous -/

def theNames : List String := ["name", "by-ref", "from-tag"]

/-- An attribute that is not taken for another one; names need no escape. -/
structure Attr (k v : String) : Prop where
  quote : '"' ∉ k.toList
  ends : Ends v
  apart : ∀ key ∈ theNames, key.toList <:+ k.toList → k = key
  ref : "ref".toList <:+ k.toList → k = "ref" ∨ k = "by-ref"
  clean : k ∈ theNames → Clean v

def Written (n : Node) : Prop := Marks n ∧ C117.Attrs Attr n

theorem pre_toList (s v : String) : (s ++ "-" ++ v).toList = s.toList ++ '-' :: v.toList := by simp

theorem clean_pre {s v : String} (hs : Clean s) (hv : Clean v) : Clean (s ++ "-" ++ v) := by
  intro c hc
  rw [pre_toList, List.mem_append, List.mem_cons] at hc
  rcases hc with hc | rfl | hc
  · exact hs c hc
  · decide
  · exact hv c hc

theorem ends_pre {s v : String} (hv : Ends v) (h0 : v ≠ "") : Ends (s ++ "-" ++ v) := by
  unfold Ends at hv ⊢
  rw [pre_toList]
  have : v.toList ≠ [] := fun e => h0 (String.toList_inj.1 (by rw [e]; rfl))
  rw [List.getLast?_append, List.getLast?_cons]
  rw [List.getLast?_eq_some_getLast this] at hv ⊢
  simpa using hv

theorem clean_common : Clean "Common" := by unfold Clean; decide

theorem nonempty {v : String} : v.toList = [] ↔ v = "" :=
  ⟨fun e => String.toList_inj.1 (by rw [e]; rfl), fun e => by rw [e]; rfl⟩

/-- One replacement for one of the names. -/
theorem step {key : String} (hkey : key ∈ theNames) {f : Txt → Option Txt} {h : String → String}
    (hh : ∀ v, Clean v → Ends v → (new f v.toList).getD v.toList = (h v).toList ∧ Clean (h v) ∧ Ends (h v))
    {n : Node} (hn : Written n) :
    sub key f (render n) = render (mapNode (onKey key h) n) ∧ Written (mapNode (onKey key h) n) := by
  obtain ⟨hm, ha⟩ := hn
  constructor
  · have hk : NoQ key.toList ∧ key.toList ≠ [] ∧ ' ' ∉ key.toList := by
      revert hkey; revert key; unfold NoQ theNames; decide
    apply sub_render (nb := "") hk.1 hk.2.1 hk.2.2 (by decide) n hm
    · intro d hd p hp
      exact ⟨(ha d hd p hp).quote, (ha d hd p hp).ends, fun h => .inl ((ha d hd p hp).apart key hkey h)⟩
    · intro d hd p hp hk
      have hc := (ha d hd p hp).clean (hk ▸ hkey)
      obtain ⟨h1, h2, -⟩ := hh p.2 hc (ha d hd p hp).ends
      rw [clean_esc hc, clean_esc h2, h1]
  · refine ⟨marks_map n hm, attrs_map (fun k v q => ?_) n ha⟩
    unfold onKey
    split
    · rename_i hk
      have hc := q.clean (hk ▸ hkey)
      obtain ⟨-, h2, h3⟩ := hh v hc q.ends
      exact ⟨q.quote, h3, q.apart, q.ref, fun _ => h2⟩
    · exact q

theorem esc_nil {v : Txt} (h : v.flatMap escV = []) : v = [] := by
  cases v with
  | nil => rfl
  | cons c v =>
    rw [List.flatMap_cons, List.append_eq_nil_iff] at h
    have h2 : ∀ d, escV d ≠ [] := by
      intro d
      unfold escV
      split
      all_goals first | decide | simp
    exact absurd h.1 (h2 c)

/-- The replacement of the references. -/
theorem step_refs {refs : List String} (hc : Clean (" ".intercalate refs)) (he : Ends (" ".intercalate refs))
    {n : Node} (hn : Written n) :
    subRefs refs (render n) = render (mapNode (onKey "ref" (refsTo refs)) n) ∧
      Written (mapNode (onKey "ref" (refsTo refs)) n) := by
  obtain ⟨hm, ha⟩ := hn
  constructor
  · apply sub_render (key := "ref") (nb := "by-") (by unfold NoQ; decide) (by decide) (by decide) (by decide) n hm
    · intro d hd p hp
      refine ⟨(ha d hd p hp).quote, (ha d hd p hp).ends, fun h => ?_⟩
      rcases (ha d hd p hp).ref h with e | e
      · exact .inl e
      · rw [e]
        exact .inr ⟨by decide, by decide⟩
    · intro d hd p hp hk
      by_cases h0 : p.2 = ""
      · rw [h0, refsTo, if_pos rfl]
        rfl
      · rw [refsTo, if_neg h0, clean_esc hc, new, if_neg (fun e => h0 (nonempty.1 (esc_nil e)))]
        rfl
  · refine ⟨marks_map n hm, attrs_map (fun k v q => ?_) n ha⟩
    unfold onKey
    split
    · rename_i hk
      refine ⟨q.quote, ?_, q.apart, q.ref, fun h => ?_⟩
      · unfold refsTo
        split
        · exact q.ends
        · exact he
      · rw [hk] at h
        exact absurd h (by decide)
    · exact q

/-! ## Values -/

theorem new_ne {f : Txt → Option Txt} {v : String} (h : v ≠ "") : new f v.toList = f v.toList := by
  rw [new, if_neg (fun e => h (nonempty.1 e))]

theorem new_nil {f : Txt → Option Txt} : new f ("" : String).toList = none := rfl

theorem val_tag {script : String} (hs : Clean script) (v : String) (hc : Clean v) (he : Ends v) :
    (new (prefixedTag script) v.toList).getD v.toList = (tagTo script v).toList ∧ Clean (tagTo script v) ∧
      Ends (tagTo script v) := by
  unfold tagTo
  by_cases h0 : v = ""
  · subst h0
    exact ⟨rfl, hc, he⟩
  · rw [new_ne h0]
    by_cases h1 : ':' ∈ v.toList
    · rw [if_pos (.inr h1), prefixedTag, if_pos h1]
      exact ⟨rfl, hc, he⟩
    · rw [if_neg (by simp [h0, h1]), prefixedTag, if_neg h1, pre_toList]
      exact ⟨rfl, clean_pre hs hc, ends_pre he h0⟩

theorem val_cls {script : String} (hs : Clean script) (v : String) (hc : Clean v) (he : Ends v) :
    (new (fun v => some (prefixed script v)) v.toList).getD v.toList = (clsTo script v).toList ∧
      Clean (clsTo script v) ∧ Ends (clsTo script v) := by
  unfold clsTo
  by_cases h0 : v = ""
  · subst h0
    exact ⟨rfl, hc, he⟩
  · rw [new_ne h0, if_neg h0, pre_toList]
    exact ⟨rfl, clean_pre hs hc, ends_pre he h0⟩

/-- The first replacement of references in rules. -/
def refTo1 (script r : String) : String :=
  if r = "" then r else if lcm.toList <+: r.toList then r else script ++ "-" ++ r

/-- The second one. -/
def refTo2 (r : String) : String := if r = lcm then "Common-" ++ lcm else r

theorem val_ref1 {script : String} (hs : Clean script) (v : String) (hc : Clean v) (he : Ends v) :
    (new (prefixedRef script) v.toList).getD v.toList = (refTo1 script v).toList ∧ Clean (refTo1 script v) ∧
      Ends (refTo1 script v) := by
  unfold refTo1
  by_cases h0 : v = ""
  · subst h0
    exact ⟨rfl, hc, he⟩
  · rw [new_ne h0, if_neg h0]
    have e : (msrRules.any (fun r => decide (r.toList <+: v.toList))) = decide (lcm.toList <+: v.toList) := by
      rw [show msrRules = [lcm] from rfl, List.any_cons, List.any_nil, Bool.or_false]
    by_cases h1 : lcm.toList <+: v.toList
    · rw [if_pos h1, prefixedRef, if_pos (by rw [e]; simpa using h1)]
      exact ⟨rfl, hc, he⟩
    · rw [if_neg h1, prefixedRef, if_neg (by rw [e]; simpa using h1), pre_toList]
      exact ⟨rfl, clean_pre hs hc, ends_pre he h0⟩

theorem val_ref2 (v : String) (hc : Clean v) (he : Ends v) :
    (new commonRef v.toList).getD v.toList = (refTo2 v).toList ∧ Clean (refTo2 v) ∧ Ends (refTo2 v) := by
  unfold refTo2
  by_cases h0 : v = ""
  · subst h0
    exact ⟨rfl, hc, he⟩
  · rw [new_ne h0]
    have e : (msrRules.any (fun r => decide (r.toList = v.toList))) = decide (lcm = v) := by
      rw [show msrRules = [lcm] from rfl, List.any_cons, List.any_nil, Bool.or_false]
      exact decide_eq_decide.2 String.toList_inj
    by_cases h1 : v = lcm
    · rw [if_pos h1, commonRef, if_pos (by rw [e]; simpa using h1.symm), h1]
      exact ⟨by decide, by unfold Clean; decide, by unfold Ends; decide⟩
    · rw [if_neg h1, commonRef, if_neg (by rw [e]; simpa using fun a => h1 a.symm)]
      exact ⟨rfl, hc, he⟩

theorem ref_twice (script r : String) : refTo2 (refTo1 script r) = refTo script r := by
  unfold refTo2 refTo1 refTo
  by_cases h0 : r = ""
  · subst h0
    rw [if_pos rfl, if_pos rfl, if_neg (by decide)]
  · rw [if_neg h0, if_neg h0]
    by_cases h1 : lcm.toList <+: r.toList
    · rw [if_pos h1, if_pos h1]
    · rw [if_neg h1, if_neg h1]

/-- `name="…"`. -/
def nameTo1 (old new v : String) : String := if v = old then new else v

theorem val_name {script name : String} (hs : Clean script) (v : String) (hc : Clean v) (he : Ends v)
    (h0 : name ≠ "") :
    (new (named name (script ++ "-" ++ name)) v.toList).getD v.toList = (nameTo1 name (script ++ "-" ++ name) v).toList ∧
      Clean (nameTo1 name (script ++ "-" ++ name) v) ∧ Ends (nameTo1 name (script ++ "-" ++ name) v) := by
  unfold nameTo1
  by_cases h1 : v = name
  · subst h1
    rw [new_ne h0, if_pos rfl, named, if_pos rfl]
    exact ⟨rfl, clean_pre hs hc, ends_pre he h0⟩
  · rw [if_neg h1]
    refine ⟨?_, hc, he⟩
    have h2 : named name (script ++ "-" ++ name) v.toList = none := by
      rw [named, if_neg (fun e => h1 (String.toList_inj.1 e))]
    unfold new
    split
    · rfl
    · rw [h2]; rfl

theorem ruleName_eq (script name : String) :
    ruleName script name = if name = lcm then "Common-" ++ lcm else script ++ "-" ++ name := by
  by_cases h : name = lcm
  · rw [if_pos h, h, ruleName, if_pos (by decide)]
    rfl
  · rw [if_neg h, ruleName, if_neg (by rw [show msrRules = [lcm] from rfl]; simpa using h)]
    rfl

/-! ## Rules and classes -/

/-- The text of a rule after the renaming is that of the element with the names changed. -/
theorem rule_text {script name : String} {refs : List String} {n : Node} (hs : Clean script) (h0 : name ≠ "")
    (hc : Clean (" ".intercalate refs)) (he : Ends (" ".intercalate refs)) (hn : Written n) :
    (renameRule name (render n) script).1 = ruleName script name ∧
    subRefs refs (renameRule name (render n) script).2 = render (mapNode (inRule script name refs) n) := by
  refine ⟨rfl, ?_⟩
  unfold renameRule
  dsimp only
  have hne : ∀ s : String, s ++ "-" ++ name ≠ name := by
    intro s e
    have := congrArg (fun x => x.toList.length) e
    simp at this
    omega
  -- the two replacements of the name amount to one
  have key : ∃ m, Written m ∧ m = mapNode (onKey "name" (nameTo script name)) n ∧
      sub "name" (named name (ruleName script name))
        (if name ∈ msrRules then render n else sub "name" (named name (pre script name)) (render n)) = render m := by
    by_cases hl : name = lcm
    · have hmem : name ∈ msrRules := by rw [hl]; decide
      rw [if_pos hmem]
      have e1 : ruleName script name = "Common" ++ "-" ++ name := by rw [ruleName_eq, if_pos hl, hl]; decide
      have := step (key := "name") (by decide) (fun v hc he => val_name clean_common v hc he h0) hn
      rw [e1]
      have e2 : nameTo1 name ("Common" ++ "-" ++ name) = nameTo script name := by
        funext v
        unfold nameTo1 nameTo
        rw [if_pos hl, hl]
        have : "Common" ++ "-" ++ lcm = "Common-" ++ lcm := by decide
        rw [this]
      rw [e2] at this
      exact ⟨_, this.2, rfl, this.1⟩
    · have hmem : name ∉ msrRules := by rw [show msrRules = [lcm] from rfl]; simpa using hl
      rw [if_neg hmem]
      have e1 : ruleName script name = script ++ "-" ++ name := by rw [ruleName_eq, if_neg hl]
      have s1 := step (key := "name") (by decide) (fun v hc he => val_name hs v hc he h0) hn
      have s2 := step (key := "name") (by decide) (fun v hc he => val_name hs v hc he h0) s1.2
      rw [e1, show pre script name = script ++ "-" ++ name from rfl, s1.1, s2.1]
      refine ⟨_, s2.2, ?_, rfl⟩
      rw [map_map]
      congr 1
      funext k v
      unfold onKey
      split
      · unfold nameTo1 nameTo
        rw [if_neg hl]
        by_cases hv : v = name
        · rw [if_pos hv, if_neg (hne script)]
        · rw [if_neg hv, if_neg hv]
      · rfl
  obtain ⟨m, hm, rfl, e⟩ := key
  rw [e]
  have s1 := step (key := "by-ref") (by decide) (val_ref1 hs) hm
  have s2 := step (key := "by-ref") (by decide) val_ref2 s1.2
  have s3 := step (key := "from-tag") (by decide) (val_tag hs) s2.2
  have s4 := step_refs hc he s3.2
  rw [s1.1, s2.1, s3.1, s4.1]
  simp only [map_map]
  congr 2
  funext k v
  unfold onKey inRule
  by_cases k1 : k = "name"
  · subst k1; simp
  · by_cases k2 : k = "by-ref"
    · subst k2; simp [ref_twice]
    · by_cases k3 : k = "from-tag"
      · subst k3; simp
      · simp [k1, k2, k3]

/-- The text of a class after the renaming is that of the element with the names changed. -/
theorem class_text {script name : String} {refs : List String} {n : Node} (hs : Clean script)
    (hc : Clean (" ".intercalate refs)) (he : Ends (" ".intercalate refs)) (hn : Written n) :
    (renameClass name (render n) script).1 = script ++ "-" ++ name ∧
    subRefs refs (renameClass name (render n) script).2 = render (mapNode (inClass script refs) n) := by
  refine ⟨rfl, ?_⟩
  unfold renameClass
  dsimp only
  have s1 := step (key := "name") (by decide) (val_tag hs) hn
  have s2 := step (key := "by-ref") (by decide) (val_cls hs) s1.2
  have s3 := step (key := "from-tag") (by decide) (val_tag hs) s2.2
  have s4 := step_refs hc he s3.2
  rw [s1.1, s2.1, s3.1, s4.1]
  simp only [map_map]
  congr 2
  funext k v
  unfold onKey inClass
  by_cases k1 : k = "name"
  · subst k1; simp
  · by_cases k2 : k = "by-ref"
    · subst k2; simp
    · by_cases k3 : k = "from-tag"
      · subst k3; simp
      · simp [k1, k2, k3]

end Lgr.Props.C117

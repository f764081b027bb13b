import Verif.Basic

/-!
# Characters and variants: `lgr/char.py` lines 45-335
-/

namespace Lgr

/-- `lgr/char.py` 45-68: class `Variant`.  `references` defaults to the empty list. -/
structure Variant where
  cp : Seq
  type : Option String := none
  whenR : Option String := none
  notWhenR : Option String := none
  comment : Option String := none
  refs : List String := []
  deriving DecidableEq, Repr, Inhabited

/-- `lgr/char.py` 78-87: `Variant.__eq__`/`__hash__` compare code point, when and not-when. -/
def Variant.key (v : Variant) : Seq × Option String × Option String :=
  (v.cp, v.whenR, v.notWhenR)

/-- The optional attributes passed around when creating characters
(`lgr/char.py` 95-106: `comment, ref, tag, when, not_when`). -/
structure Attrs where
  comment : Option String := none
  refs : List String := []
  tags : List String := []
  whenR : Option String := none
  notWhenR : Option String := none
  deriving DecidableEq, Repr, Inhabited

/-- `lgr/char.py` 90-335: `CharBase` and its subclasses.  `Char`, `RangeChar` and
`CharSequence` are told apart by `range` (set for a `RangeChar`) and by the length of `cp`
(`from_cp_or_sequence`, 251-275, builds a `CharSequence` iff there is more than one code
point).  `vars` is the dictionary `_variants` in insertion order.
Simplification: lists are values, so Python's sharing of the `ref`/`tag` list objects between
the characters of one range is not represented. -/
structure CharObj where
  cp : Seq
  range : Option (Nat × Nat) := none
  attrs : Attrs := {}
  vars : List (Seq × List Variant) := []
  deriving DecidableEq, Repr, Inhabited

namespace CharObj

/-- `isinstance(char, CharSequence)`; see `from_cp_or_sequence`, `lgr/char.py` 251-275. -/
def isSequence (c : CharObj) : Bool := decide (1 < c.cp.length)

/-- `isinstance(char, RangeChar)`, `lgr/char.py` 290-307. -/
def isRange (c : CharObj) : Bool := c.range.isSome

/-- `len(char)`, `lgr/char.py` 196-197. -/
def len (c : CharObj) : Nat := c.cp.length

/-- `lgr/char.py` 111-148 (`CharBase.add_variant`) and 309-314 (`RangeChar.add_variant`
raises).  A variant equal to an existing one raises; otherwise it is appended to the list
stored under its code point.  `assert len(cp_or_sequence)` is line 133. -/
def addVariant (c : CharObj) (v : Variant) : Except Err CharObj :=
  if c.range.isSome then .error (.format "RANGE_NO_CHILD")
  else if v.cp = [] then .error .assertion
  else
    match dget c.vars v.cp with
    | some vs =>
      if v.key ∈ vs.map Variant.key then .error (.variantAlreadyExists c.cp v.cp)
      else .ok { c with vars := dset c.vars v.cp (vs ++ [v]) }
    | none => .ok { c with vars := dset c.vars v.cp [v] }

/-- Python `list.remove(var)`: drop the first element equal to `var` (by `Variant.__eq__`). -/
def removeKey (k : Seq × Option String × Option String) : List Variant → List Variant
  | [] => []
  | w :: vs => if w.key = k then vs else w :: removeKey k vs

/-- `lgr/char.py` 150-179 (`CharBase.del_variant`), 316-319 (`RangeChar.del_variant` raises).
Returns the character and whether a variant was deleted. -/
def delVariant (c : CharObj) (vcp : Seq) (whenR notWhenR : Option String) :
    Except Err (CharObj × Bool) :=
  if c.range.isSome then .error (.format "RANGE_NO_CHILD")
  else if vcp = [] then .error .assertion
  else
    match dget c.vars vcp with
    | some vs =>
      if (vcp, whenR, notWhenR) ∈ vs.map Variant.key then
        let vs' := removeKey (vcp, whenR, notWhenR) vs
        if vs' = [] then .ok ({ c with vars := ddel c.vars vcp }, true)
        else .ok ({ c with vars := dset c.vars vcp vs' }, true)
      else .ok (c, false)
    | none => .ok (c, false)

/-- `lgr/char.py` 199-205. -/
def hasVariant (c : CharObj) : Bool := decide (0 < c.vars.length)

/-- `lgr/char.py` 207-223: `is_prefix_of`. -/
def isPrefixOf (c : CharObj) (s : Seq) : Bool :=
  decide (c.cp.length ≤ s.length) && decide (c.cp = s.take c.cp.length)

/-- `lgr/char.py` 225-235: variants, keys sorted (as tuples), then insertion order.
`self._variants[variant_cp]` is the value stored with the key. -/
def getVariants (c : CharObj) : List Variant :=
  (sortAsc id (c.vars.map Prod.fst)).flatMap (fun k => (dget c.vars k).getD [])

/-- `lgr/char.py` 237-243: `get_variant(var_cp)` (`None` when absent). -/
def getVariant (c : CharObj) (vcp : Seq) : Option (List Variant) := dget c.vars vcp

/-- `lgr/char.py` 245-249 (`self._variants.get(self.cp, [])`). -/
def reflexiveVariants (c : CharObj) : List Variant := (dget c.vars c.cp).getD []

/-- One variant edit on a character: the two mutators of `CharBase`. -/
inductive VarOp where
  | add (v : Variant)
  | del (vcp : Seq) (whenR notWhenR : Option String)
  deriving Repr

/-- Perform one edit; a raising call leaves the character as it was (both mutators raise
before touching `_variants`, `lgr/char.py` 140-148, 171-179). The outcome is the returned
Boolean of `del_variant`, `true` for a successful add, or the exception. -/
def varStep (c : CharObj) : VarOp → CharObj × Except Err Bool
  | .add v =>
    match c.addVariant v with
    | .ok c' => (c', .ok true)
    | .error e => (c, .error e)
  | .del k w n =>
    match c.delVariant k w n with
    | .ok (c', b) => (c', .ok b)
    | .error e => (c, .error e)

/-- State after a list of edits. -/
def varRun (c : CharObj) (ops : List VarOp) : CharObj := ops.foldl (fun c op => (c.varStep op).1) c

end CharObj

/-! ## Well-formedness of the variant dictionary -/

/-- Structural invariant of `_variants`: no two entries for a key, no empty entry, each
variant filed under its code point, no two equal variants, no variants on range characters. -/
structure CharObj.VarWF (c : CharObj) : Prop where
  keys : (c.vars.map Prod.fst).Nodup
  nonempty : ∀ p ∈ c.vars, p.2 ≠ [] ∧ p.1 ≠ []
  filed : ∀ p ∈ c.vars, ∀ v ∈ p.2, v.cp = p.1
  uniq : ∀ p ∈ c.vars, (p.2.map Variant.key).Nodup
  range : c.range.isSome → c.vars = []

namespace CharObj

theorem removeKey_sublist (k) (vs : List Variant) : (removeKey k vs).Sublist vs := by
  induction vs with
  | nil => simp [removeKey]
  | cons w vs ih =>
    by_cases h : w.key = k
    · simp [removeKey, h]
    · simp [removeKey, h, ih]

theorem mem_removeKey {k} {vs : List Variant} (h : (vs.map Variant.key).Nodup) (v : Variant) :
    v ∈ removeKey k vs ↔ v ∈ vs ∧ v.key ≠ k := by
  induction vs with
  | nil => simp [removeKey]
  | cons w vs ih =>
    simp only [List.map_cons, List.nodup_cons] at h
    by_cases hw : w.key = k
    · simp only [removeKey, hw, if_true, List.mem_cons]
      constructor
      · intro hv
        refine ⟨Or.inr hv, ?_⟩
        intro hk; apply h.1; rw [hw, ← hk]; exact List.mem_map_of_mem hv
      · rintro ⟨rfl | hv, hk⟩
        · exact absurd hw hk
        · exact hv
    · simp only [removeKey, hw, if_false, List.mem_cons, ih h.2]
      constructor
      · rintro (rfl | ⟨h1, h2⟩)
        · exact ⟨Or.inl rfl, hw⟩
        · exact ⟨Or.inr h1, h2⟩
      · rintro ⟨rfl | h1, h2⟩
        · exact Or.inl rfl
        · exact Or.inr ⟨h1, h2⟩

theorem varWF_mk {cp r a} : VarWF { cp := cp, range := r, attrs := a, vars := [] } :=
  ⟨by simp, by simp, by simp, by simp, by simp⟩

theorem addVariant_wf {c c' : CharObj} {v : Variant} (h : c.VarWF)
    (he : c.addVariant v = .ok c') : c'.VarWF := by
  unfold addVariant at he
  split at he
  · simp at he
  rename_i hr
  split at he
  · simp at he
  rename_i hv
  split at he
  · rename_i vs hvs
    split at he
    · simp at he
    rename_i hk
    injection he with he; subst he
    have hm := mem_of_dget hvs
    refine ⟨dset_nodup h.keys _ _, ?_, ?_, ?_, fun h' => absurd h' hr⟩
    · intro p hp
      rcases mem_dset hp with rfl | hp
      · exact ⟨by simp, hv⟩
      · exact h.nonempty p hp
    · intro p hp w hw
      rcases mem_dset hp with rfl | hp
      · simp at hw
        rcases hw with hw | rfl
        · exact h.filed _ hm _ hw
        · rfl
      · exact h.filed p hp w hw
    · intro p hp
      rcases mem_dset hp with rfl | hp
      · simp only [List.map_append, List.map_cons, List.map_nil]
        rw [List.nodup_append]
        refine ⟨h.uniq _ hm, by simp, ?_⟩
        intro a ha b hb; simp at hb; subst hb; rintro rfl; exact hk ha
      · exact h.uniq p hp
  · injection he with he; subst he
    refine ⟨dset_nodup h.keys _ _, ?_, ?_, ?_, fun h' => absurd h' hr⟩
    · intro p hp
      rcases mem_dset hp with rfl | hp
      · exact ⟨by simp, hv⟩
      · exact h.nonempty p hp
    · intro p hp w hw
      rcases mem_dset hp with rfl | hp
      · simp at hw; subst hw; rfl
      · exact h.filed p hp w hw
    · intro p hp
      rcases mem_dset hp with rfl | hp
      · simp
      · exact h.uniq p hp

theorem delVariant_wf {c c' : CharObj} {k w n b} (h : c.VarWF)
    (he : c.delVariant k w n = .ok (c', b)) : c'.VarWF := by
  unfold delVariant at he
  split at he
  · simp at he
  rename_i hr
  split at he
  · simp at he
  rename_i hv
  split at he
  · rename_i vs hvs
    have hm := mem_of_dget hvs
    split at he
    · simp only at he
      split at he
      · injection he with he; injection he with he _; subst he
        have hs := ddel_sublist c.vars k
        exact ⟨ddel_nodup h.keys _, fun p hp => h.nonempty p (hs.subset hp),
          fun p hp => h.filed p (hs.subset hp), fun p hp => h.uniq p (hs.subset hp),
          fun h' => absurd h' hr⟩
      · rename_i hne
        injection he with he; injection he with he _; subst he
        have hs := removeKey_sublist (k, w, n) vs
        refine ⟨dset_nodup h.keys _ _, ?_, ?_, ?_, fun h' => absurd h' hr⟩
        · intro p hp
          rcases mem_dset hp with rfl | hp
          · exact ⟨hne, hv⟩
          · exact h.nonempty p hp
        · intro p hp w hw
          rcases mem_dset hp with rfl | hp
          · exact h.filed _ hm _ (hs.subset hw)
          · exact h.filed p hp w hw
        · intro p hp
          rcases mem_dset hp with rfl | hp
          · exact (h.uniq _ hm).sublist (hs.map _)
          · exact h.uniq p hp
    · injection he with he; injection he with he _; subst he; exact h
  · injection he with he; injection he with he _; subst he; exact h

theorem varStep_wf {c : CharObj} (h : c.VarWF) (op : VarOp) : (c.varStep op).1.VarWF := by
  cases op with
  | add v =>
    simp only [varStep]
    split
    · exact addVariant_wf h ‹_›
    · exact h
  | del k w n =>
    simp only [varStep]
    split
    · exact delVariant_wf h ‹_›
    · exact h

theorem varRun_wf {c : CharObj} (h : c.VarWF) (ops : List VarOp) : (c.varRun ops).VarWF := by
  unfold varRun
  induction ops generalizing c with
  | nil => exact h
  | cons op ops ih => exact ih (varStep_wf h op)

theorem mem_getVariants {c : CharObj} (h : c.VarWF) (v : Variant) :
    v ∈ c.getVariants ↔ ∃ vs, dget c.vars v.cp = some vs ∧ v ∈ vs := by
  unfold getVariants
  simp only [List.mem_flatMap, mem_sortAsc]
  constructor
  · rintro ⟨k, hk, hv⟩
    cases hd : dget c.vars k with
    | none => simp [hd] at hv
    | some vs =>
      simp [hd] at hv
      have := h.filed _ (mem_of_dget hd) v hv
      simp at this
      exact ⟨vs, this ▸ hd, hv⟩
  · rintro ⟨vs, hd, hv⟩
    exact ⟨v.cp, List.mem_map.2 ⟨_, mem_of_dget hd, rfl⟩, by simp [hd, hv]⟩

end CharObj

end Lgr

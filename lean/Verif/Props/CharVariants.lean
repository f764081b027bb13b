import Verif.Char

/-!
# C08: the variants of a character form a set keyed by (code point, when, not-when)

Specification: a character's variants are a partial function from keys to variants, edited
by point updates.  The only observation used is what `get_variants` yields.
-/

namespace Lgr.Props.C08
open Lgr CharObj

abbrev VKey := Seq × Option String × Option String

/-- What a user sees of a variant set: the variant listed by `get_variants` under a key. -/
def view (c : CharObj) (k : VKey) : Option Variant := c.getVariants.find? (fun v => v.key == k)

/-- Abstract variant store. -/
abbrev Store := VKey → Option Variant

/-- Point update. -/
def upd (s : Store) (k : VKey) (o : Option Variant) : Store := fun x => if x = k then o else s x

/-- Abstract meaning of an edit on a (non-range) character with code points `cp`. -/
def specStep (cp : Seq) (s : Store) : VarOp → Store × Except Err Bool
  | .add v =>
    if v.cp = [] then (s, .error .assertion)
    else if (s v.key).isSome then (s, .error (.variantAlreadyExists cp v.cp))
    else (upd s v.key (some v), .ok true)
  | .del k w n =>
    if k = [] then (s, .error .assertion)
    else if (s (k, w, n)).isSome then (upd s (k, w, n) none, .ok true)
    else (s, .ok false)

/-! ## Helper lemmas -/

theorem getVariants_keys_nodup {c : CharObj} (h : c.VarWF) :
    (c.getVariants.map Variant.key).Nodup := by
  unfold getVariants
  rw [List.map_flatMap]
  rw [List.nodup_flatMap]
  constructor
  · intro k hk
    cases hd : dget c.vars k with
    | none => simp
    | some vs => simpa using h.uniq _ (mem_of_dget hd)
  · have hn : (sortAsc id (c.vars.map Prod.fst)).Nodup := (sortAsc_perm _ _).nodup_iff.2 h.keys
    refine hn.imp_of_mem ?_
    intro a b ha hb hab
    simp only [Function.onFun, List.disjoint_left]
    intro x hx hx'
    cases hda : dget c.vars a with
    | none => simp [hda] at hx
    | some va =>
      cases hdb : dget c.vars b with
      | none => simp [hdb] at hx'
      | some vb =>
        simp only [hda, hdb, Option.getD_some, List.mem_map] at hx hx'
        obtain ⟨v, hv, rfl⟩ := hx
        obtain ⟨w, hw, hwk⟩ := hx'
        have h1 := h.filed _ (mem_of_dget hda) v hv
        have h2 := h.filed _ (mem_of_dget hdb) w hw
        simp only at h1 h2
        have h3 : w.cp = v.cp := congrArg Prod.fst hwk
        exact hab (by rw [← h1, ← h2, h3])

theorem view_eq_some {c : CharObj} (h : c.VarWF) {k : VKey} {v : Variant} :
    view c k = some v ↔ v ∈ c.getVariants ∧ v.key = k := by
  unfold view
  constructor
  · intro hf
    exact ⟨List.mem_of_find?_eq_some hf, by simpa using List.find?_some hf⟩
  · rintro ⟨hm, hk⟩
    have hn := getVariants_keys_nodup h
    generalize c.getVariants = l at hm hn
    induction l with
    | nil => simp at hm
    | cons w l ih =>
      simp only [List.map_cons, List.nodup_cons] at hn
      rcases List.mem_cons.1 hm with rfl | hm
      · simp [hk]
      · have : w.key ≠ k := by
          intro hw; apply hn.1; rw [hw, ← hk]; exact List.mem_map_of_mem hm
        simp [this, ih hm hn.2]

theorem view_eq_some' {c : CharObj} (h : c.VarWF) {k : VKey} {v : Variant} :
    view c k = some v ↔ (∃ vs, dget c.vars k.1 = some vs ∧ v ∈ vs) ∧ v.key = k := by
  rw [view_eq_some h, mem_getVariants h]
  constructor
  · rintro ⟨⟨vs, h1, h2⟩, rfl⟩
    exact ⟨⟨vs, h1, h2⟩, rfl⟩
  · rintro ⟨⟨vs, h1, h2⟩, rfl⟩
    exact ⟨⟨vs, h1, h2⟩, rfl⟩

theorem view_isSome {c : CharObj} (h : c.VarWF) {k : VKey} {vs : List Variant}
    (hd : dget c.vars k.1 = some vs) : (view c k).isSome ↔ k ∈ vs.map Variant.key := by
  rw [Option.isSome_iff_exists, List.mem_map]
  constructor
  · rintro ⟨v, hv⟩
    rw [view_eq_some' h, hd] at hv
    obtain ⟨⟨ws, hw, hm⟩, hk⟩ := hv
    injection hw with hw; subst hw
    exact ⟨v, hm, hk⟩
  · rintro ⟨v, hm, hk⟩
    exact ⟨v, (view_eq_some' h).2 ⟨⟨vs, hd, hm⟩, hk⟩⟩

theorem view_none {c : CharObj} (h : c.VarWF) {k : VKey}
    (hd : dget c.vars k.1 = none) : view c k = none := by
  rw [Option.eq_none_iff_forall_not_mem]
  intro v hv
  have hv : view c k = some v := hv
  rw [view_eq_some' h, hd] at hv
  simp at hv

theorem ext_view {c : CharObj} {s : Store} (h : ∀ k v, view c k = some v ↔ s k = some v) :
    view c = s := by
  funext k
  apply Option.ext
  intro v; exact h k v

theorem step_refines {c : CharObj} (h : c.VarWF) (hr : c.range = none) (op : VarOp) :
    view (c.varStep op).1 = (specStep c.cp (view c) op).1 ∧
    (c.varStep op).2 = (specStep c.cp (view c) op).2 := by
  have hwf := varStep_wf h op
  cases op with
  | add v =>
    simp only [varStep, specStep] at hwf ⊢
    by_cases hv : v.cp = []
    · simp [addVariant, hr, hv]
    cases hd : dget c.vars v.cp with
    | none =>
      have hn : view c v.key = none := view_none h hd
      simp only [addVariant, hr, hv, hd, Option.isSome_none, if_false, hn,
        Bool.false_eq_true] at hwf ⊢
      refine ⟨ext_view ?_, by trivial⟩
      intro k w
      rw [view_eq_some' hwf]
      simp only [dget_dset, upd]
      by_cases hk : k = v.key
      · subst hk
        simp [Variant.key]
        constructor
        · rintro ⟨rfl, _⟩; rfl
        · rintro rfl; exact ⟨rfl, rfl, rfl, rfl⟩
      · simp only [hk, if_false]
        rw [view_eq_some' h]
        by_cases hcp : v.cp = k.1
        · simp only [hcp, if_true, Option.some.injEq, exists_eq_left', List.mem_singleton]
          rw [← hcp, hd]
          constructor
          · rintro ⟨rfl, rfl⟩; exact absurd rfl hk
          · rintro ⟨⟨_, h1, _⟩, _⟩; simp at h1
        · simp only [hcp, if_false]
    | some vs =>
      by_cases hk : v.key ∈ vs.map Variant.key
      · have hs : (view c v.key).isSome := (view_isSome h hd).2 hk
        simp only [addVariant, hr, hv, hd, Option.isSome_none, if_false, hk, if_true, hs,
          Bool.false_eq_true, and_self]
      · have hn : ¬ (view c v.key).isSome := fun hs => hk ((view_isSome h hd).1 hs)
        simp only [addVariant, hr, hv, hd, Option.isSome_none, if_false, hk, hn,
          Bool.false_eq_true] at hwf ⊢
        refine ⟨ext_view ?_, by trivial⟩
        intro k w
        rw [view_eq_some' hwf]
        simp only [dget_dset, upd]
        by_cases hkk : k = v.key
        · subst hkk
          simp only [Variant.key, if_true, Option.some.injEq, exists_eq_left', List.mem_append,
            List.mem_singleton]
          constructor
          · rintro ⟨hw | rfl, he⟩
            · exact absurd (List.mem_map.2 ⟨w, hw, he⟩) hk
            · rfl
          · rintro rfl; exact ⟨Or.inr rfl, rfl⟩
        · simp only [hkk, if_false]
          rw [view_eq_some' h]
          by_cases hcp : v.cp = k.1
          · rw [← hcp, hd]
            simp only [if_true, Option.some.injEq, exists_eq_left', List.mem_append,
              List.mem_singleton]
            constructor
            · rintro ⟨hw | rfl, he⟩
              · exact ⟨hw, he⟩
              · exact absurd he.symm hkk
            · rintro ⟨hw, he⟩; exact ⟨Or.inl hw, he⟩
          · simp only [hcp, if_false]
  | del kcp w n =>
    simp only [varStep, specStep] at hwf ⊢
    by_cases hv : kcp = []
    · simp [delVariant, hr, hv]
    cases hd : dget c.vars kcp with
    | none =>
      have hn : view c (kcp, w, n) = none := view_none h hd
      simp [delVariant, hr, hv, hd, hn]
    | some vs =>
      by_cases hk : (kcp, w, n) ∈ vs.map Variant.key
      · have hs : (view c (kcp, w, n)).isSome := (view_isSome (k := (kcp, w, n)) h hd).2 hk
        simp only [delVariant, hr, hv, hd, Option.isSome_none, if_false, hk, if_true, hs,
          Bool.false_eq_true] at hwf ⊢
        have hu := h.uniq _ (mem_of_dget hd)
        by_cases he : removeKey (kcp, w, n) vs = []
        · simp only [he, if_true] at hwf ⊢
          refine ⟨ext_view ?_, by trivial⟩
          intro k v
          rw [view_eq_some' hwf]
          simp only [dget_ddel h.keys, upd]
          by_cases hkk : k = (kcp, w, n)
          · subst hkk; simp
          · simp only [hkk, if_false]
            rw [view_eq_some' h]
            by_cases hcp : kcp = k.1
            · simp only [hcp, if_true]
              constructor
              · rintro ⟨⟨_, h1, _⟩, _⟩; simp at h1
              · rintro ⟨⟨ws, h1, hm⟩, h2⟩
                rw [← hcp, hd] at h1
                injection h1 with h1; subst h1
                have : v ∈ removeKey (kcp, w, n) vs :=
                  (mem_removeKey hu v).2 ⟨hm, by rw [h2]; exact hkk⟩
                rw [he] at this; simp at this
            · simp only [hcp, if_false]
        · simp only [he, if_false] at hwf ⊢
          refine ⟨ext_view ?_, by trivial⟩
          intro k v
          rw [view_eq_some' hwf]
          simp only [dget_dset, upd]
          by_cases hkk : k = (kcp, w, n)
          · subst hkk
            simp only [if_true, Option.some.injEq, exists_eq_left', reduceCtorEq, iff_false,
              not_and]
            intro hm
            exact ((mem_removeKey hu v).1 hm).2
          · simp only [hkk, if_false]
            rw [view_eq_some' h]
            by_cases hcp : kcp = k.1
            · rw [← hcp, hd]
              simp only [if_true, Option.some.injEq, exists_eq_left']
              constructor
              · rintro ⟨hm, h2⟩; exact ⟨((mem_removeKey hu v).1 hm).1, h2⟩
              · rintro ⟨hm, h2⟩
                exact ⟨(mem_removeKey hu v).2 ⟨hm, by rw [h2]; exact hkk⟩, h2⟩
            · simp only [hcp, if_false]
      · have hs : ¬ (view c (kcp, w, n)).isSome :=
          fun hs => hk ((view_isSome (k := (kcp, w, n)) h hd).1 hs)
        simp only [delVariant, hr, hv, hd, Option.isSome_none, if_false, hk, hs,
          Bool.false_eq_true, and_self]

theorem varStep_cp (c : CharObj) (op : VarOp) :
    (c.varStep op).1.cp = c.cp ∧ (c.varStep op).1.range = c.range := by
  cases op with
  | add v =>
    simp only [varStep, addVariant]
    split <;> rename_i he <;> simp at he ⊢
    split at he
    · simp at he
    split at he
    · simp at he
    split at he
    · split at he
      · simp at he
      · injection he with he; subst he; simp
    · injection he with he; subst he; simp
  | del k w n =>
    simp only [varStep, delVariant]
    split <;> rename_i he <;> simp at he ⊢
    split at he
    · simp at he
    split at he
    · simp at he
    split at he
    · split at he
      · split at he <;> · injection he with he; injection he with he _; subst he; simp
      · injection he with he; injection he with he _; subst he; simp
    · injection he with he; injection he with he _; subst he; simp

/-! ## The property -/

/-- A fresh character without variants. -/
def fresh (cp : Seq) (a : Attrs) : CharObj := { cp := cp, attrs := a }

/-- Outcomes of a list of edits. -/
def outcomes (c : CharObj) : List VarOp → List (Except Err Bool)
  | [] => []
  | op :: ops => (c.varStep op).2 :: outcomes (c.varStep op).1 ops

/-- Outcomes prescribed by the specification. -/
def specOutcomes (cp : Seq) (s : Store) : List VarOp → List (Except Err Bool)
  | [] => []
  | op :: ops => (specStep cp s op).2 :: specOutcomes cp (specStep cp s op).1 ops

/-- **C08** After any list of edits on a fresh character, what `get_variants` lists under each
key is what the abstract store holds, and each call's outcome (return value or exception) is
the one the abstract store prescribes. -/
theorem variants_refine_store (cp : Seq) (a : Attrs) (ops : List VarOp) :
    view ((fresh cp a).varRun ops) =
      ops.foldl (fun s op => (specStep cp s op).1) (fun _ => none) ∧
    outcomes (fresh cp a) ops = specOutcomes cp (fun _ => none) ops := by
  have main : ∀ (ops : List VarOp) (c : CharObj), c.VarWF → c.range = none → c.cp = cp →
      view (c.varRun ops) = ops.foldl (fun s op => (specStep cp s op).1) (view c) ∧
      outcomes c ops = specOutcomes cp (view c) ops := by
    intro ops
    induction ops with
    | nil => intro c _ _ _; exact ⟨rfl, rfl⟩
    | cons op ops ih =>
      intro c h hr hc
      have hs := step_refines h hr op
      have hc' := varStep_cp c op
      have := ih (c.varStep op).1 (varStep_wf h op) (by rw [hc'.2, hr]) (by rw [hc'.1, hc])
      rw [hs.1, hc] at this
      refine ⟨this.1, ?_⟩
      simp only [outcomes, specOutcomes]
      rw [this.2, hs.2, hc]
  have h0 : view (fresh cp a) = fun _ => none := by
    funext k; simp [view, fresh, getVariants, sortAsc]
  have := main ops (fresh cp a) varWF_mk rfl rfl
  rw [h0] at this; exact this

/-- **C08** No key is listed twice, and the listing is in ascending code point order. -/
theorem variants_unique_sorted (cp : Seq) (a : Attrs) (ops : List VarOp) :
    (((fresh cp a).varRun ops).getVariants.map Variant.key).Nodup ∧
    (((fresh cp a).varRun ops).getVariants.map Variant.cp).Pairwise (· ≤ ·) := by
  have h := varRun_wf (c := fresh cp a) varWF_mk ops
  refine ⟨getVariants_keys_nodup h, ?_⟩
  generalize (fresh cp a).varRun ops = c at h
  unfold getVariants
  have hs := sortAsc_sorted id (c.vars.map Prod.fst)
  rw [List.map_flatMap, List.flatMap_def, List.pairwise_flatten]
  have hf : ∀ k, ∀ x ∈ ((dget c.vars k).getD []).map Variant.cp, x = k := by
    intro k x hx
    cases hd : dget c.vars k with
    | none => simp [hd] at hx
    | some vs =>
      simp only [hd, Option.getD_some, List.mem_map] at hx
      obtain ⟨v, hv, rfl⟩ := hx
      exact h.filed _ (mem_of_dget hd) v hv
  constructor
  · intro l hl
    obtain ⟨k, _, rfl⟩ := List.mem_map.1 hl
    rw [List.pairwise_iff_forall_sublist]
    intro x y hxy
    have hx := hf k x (hxy.subset (by simp))
    have hy := hf k y (hxy.subset (by simp))
    rw [hx, hy]
  · rw [List.pairwise_map]
    refine hs.imp ?_
    intro k1 k2 hk x hx y hy
    rw [hf k1 x hx, hf k2 y hy]; exact hk

/-- **C08** Adding then deleting the same variant restores the character exactly, and the
delete reports success. -/
theorem del_after_add (c c' : CharObj) (hwf : c.VarWF) (v : Variant)
    (h : c.addVariant v = .ok c') : c'.delVariant v.cp v.whenR v.notWhenR = .ok (c, true) := by
  have hnd : ∀ (d : List (Seq × List Variant)) (x : List Variant), dget d v.cp = none →
      ddel (dset d v.cp x) v.cp = d := by
    intro d x
    induction d with
    | nil => intro _; simp [dset, ddel]
    | cons p d ih =>
      obtain ⟨k, w⟩ := p
      intro hn
      by_cases hk : k = v.cp
      · simp [dget, hk] at hn
      · simp [dget, hk] at hn
        simp [dset, ddel, hk, ih hn]
  have hss : ∀ (d : List (Seq × List Variant)) (x y : List Variant), dget d v.cp = some y →
      dset (dset d v.cp x) v.cp y = d := by
    intro d x y
    induction d with
    | nil => intro h; simp [dget] at h
    | cons p d ih =>
      obtain ⟨k, w⟩ := p
      intro hn
      by_cases hk : k = v.cp
      · simp [dget, hk] at hn; simp [dset, hk, hn]
      · simp [dget, hk] at hn
        simp [dset, hk, ih hn]
  have hrm : ∀ vs : List Variant, v.key ∉ vs.map Variant.key → removeKey v.key (vs ++ [v]) = vs := by
    intro vs
    induction vs with
    | nil => intro _; simp [removeKey]
    | cons w vs ih =>
      intro hn
      simp only [List.map_cons, List.mem_cons, not_or] at hn
      have : w.key ≠ v.key := fun h => hn.1 h.symm
      simp [removeKey, this, ih hn.2]
  have hkey : (v.cp, v.whenR, v.notWhenR) = v.key := rfl
  unfold addVariant at h
  split at h
  · simp at h
  rename_i hr
  split at h
  · simp at h
  rename_i hv
  split at h
  · rename_i vs hvs
    split at h
    · simp at h
    rename_i hk
    injection h with h; subst h
    have hne : vs ≠ [] := (hwf.nonempty _ (mem_of_dget hvs)).1
    simp [delVariant, hr, hv, dget_dset, hkey, hrm vs hk, hne, hss _ _ _ hvs]
  · rename_i hvs
    injection h with h; subst h
    simp [delVariant, hr, hv, dget_dset, hkey, removeKey, hnd _ _ hvs]

/-- **C08** A character belonging to a range accepts no variant edit. -/
theorem range_rejects_variants (c : CharObj) (h : c.range.isSome) (op : VarOp) :
    c.varStep op = (c, .error (.format "RANGE_NO_CHILD")) := by
  cases op <;> simp [varStep, addVariant, delVariant, h]

/-! Non-vacuity: a history with all outcomes. -/
example : outcomes (fresh [97] {})
    [.add { cp := [98], type := some "blocked" }, .add { cp := [98] },
     .add { cp := [98], whenR := some "r" }, .del [98] none none, .del [98] none none, .add { cp := [] }] =
    [.ok true, .error (.variantAlreadyExists [97] [98]), .ok true, .ok true, .ok false,
     .error .assertion] := by rfl
example : ((fresh [97] {}).varRun [.add { cp := [99] }, .add { cp := [98], whenR := some "r" },
    .add { cp := [98] }]).getVariants.map Variant.key =
    [([98], some "r", none), ([98], none, none), ([99], none, none)] := by decide
example : ∃ c', (fresh [97] {}).addVariant { cp := [98] } = .ok c' ∧ (fresh [97] {}).VarWF :=
  ⟨_, rfl, varWF_mk⟩

end Lgr.Props.C08

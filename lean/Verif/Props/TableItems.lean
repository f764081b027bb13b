import Verif.Tables
import Verif.Props.Rebuild

/-!
# What a table says

Helpers for C73–C75: a table is a list of items, each of which is taken if it is acceptable at its place;
the LGR that results from adding the items one after the other, forgetting the errors, is described.
-/

namespace Lgr.Props.TableItems
open Lgr Tables Text LGR Repertoire C50 C72 Checks

/-- What a line may say: a reference, a code point or sequence with references, a variant with a type and
references. -/
inductive Item where
  | ref (i : String) (value : String) (comment : Option String)
  | base (k : Seq) (refs : List String)
  | var (k v : Seq) (type : Option String) (refs : List String)

/-- `it` is the first item of the list that satisfies `P` given the items before it, these being `pre`. -/
def First (P : List Item → Item → Prop) (items pre : List Item) (it : Item) : Prop :=
  (∃ post, items = pre ++ it :: post) ∧ P pre it ∧
    ∀ pre' it' post', pre = pre' ++ it' :: post' → ¬ P pre' it'

/-- The reference `i` has been defined by one of the items. -/
def known (valid : String → Bool) (pre : List Item) (i : String) : Bool :=
  valid i && pre.any (fun | .ref j _ _ => i == j | _ => false)

/-- References are acceptable: they have been defined, each is given once. -/
def RefsGood (valid : String → Bool) (force : Bool) (pre : List Item) (refs : List String) : Prop :=
  force = true ∨ (∀ i ∈ refs, known valid pre i = true) ∧ refs.Nodup

/-- The item defines the reference `i`. -/
def IsRef (valid : String → Bool) (i : String) (_ : List Item) (it : Item) : Prop :=
  valid i = true ∧ ∃ v c, it = .ref i v c

/-- The item is an acceptable `k`. -/
def IsBase (valid : String → Bool) (force : Bool) (k : Seq) (pre : List Item) (it : Item) : Prop :=
  ∃ refs, it = .base k refs ∧ RefsGood valid force pre refs

/-- The item is an acceptable variant `v` of `k`, `k` being there already. -/
def IsVar (valid : String → Bool) (force : Bool) (k v : Seq) (pre : List Item) (it : Item) : Prop :=
  ∃ t refs, it = .var k v t refs ∧ RefsGood valid force pre refs ∧
    ∃ pre' it', First (IsBase valid force k) pre pre' it'

/-- The variants of `k` that the items give. -/
def VarOf (valid : String → Bool) (force : Bool) (items : List Item) (k : Seq) (u : Variant) : Prop :=
  ∃ pre v t refs, First (IsVar valid force k v) items pre (.var k v t refs) ∧
    u = ⟨v, t, none, none, none, refs.filter (known valid pre)⟩

/-- The entry for `k` that the items give. -/
def EntryOf (valid : String → Bool) (force : Bool) (items : List Item) (k : Seq) (c : CharObj) : Prop :=
  c.cp = k ∧ c.range = none ∧
  (∃ pre refs, First (IsBase valid force k) items pre (.base k refs) ∧
    c.attrs = { refs := refs.filter (known valid pre) }) ∧
  (∀ u, u ∈ c.getVariants ↔ VarOf valid force items k u) ∧ (c.getVariants.map Variant.key).Nodup

/-- The LGR is what the items say. -/
structure Says (valid : String → Bool) (force : Bool) (items : List Item) (g : LGR) : Prop where
  refs : ∀ i r, dget g.refs.refs i = some r ↔
    ∃ pre, First (IsRef valid i) items pre (.ref i r.value r.comment)
  entry : ∀ k c, g.rep.lookup k = some c → EntryOf valid force items k c
  all : ∀ k, (∃ pre it, First (IsBase valid force k) items pre it) → (g.rep.lookup k).isSome = true
  types : ∀ t, t ∈ g.types ↔ ∃ k u, VarOf valid force items k u ∧ u.type = t
  ranges : g.rep.ranges = []
  tags : ∀ t x, x ∉ tagSet g t

/-! ## First occurrences -/

theorem snoc_split {α} {l pre post : List α} {x a : α} (h : l ++ [x] = pre ++ a :: post) :
    (pre = l ∧ a = x ∧ post = []) ∨ ∃ post', l = pre ++ a :: post' := by
  rcases List.eq_nil_or_concat post with rfl | ⟨post', y, rfl⟩
  · have := List.append_inj' h rfl
    exact Or.inl ⟨this.1.symm, by simpa using this.2.symm, rfl⟩
  · right
    rw [List.concat_eq_append, ← List.cons_append, ← List.append_assoc] at h
    exact ⟨post', (List.append_inj' h rfl).1⟩

theorem first_of_mem {P : List Item → Item → Prop} {items pre : List Item} {it : Item} {post : List Item}
    (h : items = pre ++ it :: post) (hP : P pre it) : ∃ pre it, First P items pre it := by
  induction hn : pre.length using Nat.strong_induction_on generalizing pre it post with
  | _ n ih =>
    subst hn
    by_cases hc : ∀ pre' it' post', pre = pre' ++ it' :: post' → ¬ P pre' it'
    · exact ⟨pre, it, ⟨post, h⟩, hP, hc⟩
    · push Not at hc
      obtain ⟨pre', it', post', h1, h2⟩ := hc
      refine ih pre'.length ?_ (pre := pre') (it := it') (post := post' ++ it :: post) ?_ h2 rfl
      · rw [h1]; simp
      · rw [h, h1]; simp

theorem first_unique {P : List Item → Item → Prop} {items pre pre' : List Item} {it it' : Item}
    (h : First P items pre it) (h' : First P items pre' it') : pre = pre' ∧ it = it' := by
  obtain ⟨⟨post, h1⟩, h2, h3⟩ := h
  obtain ⟨⟨post', h1'⟩, h2', h3'⟩ := h'
  rw [h1] at h1'
  rcases List.append_eq_append_iff.1 h1' with ⟨as, ha, hb⟩ | ⟨as, ha, hb⟩
  · cases as with
    | nil =>
      simp only [List.append_nil] at ha
      simp only [List.nil_append, List.cons.injEq] at hb
      exact ⟨ha.symm, hb.1⟩
    | cons a as =>
      simp only [List.cons_append, List.cons.injEq] at hb
      exact absurd h2 (h3' pre it as (by rw [ha, hb.1]))
  · cases as with
    | nil =>
      simp only [List.append_nil] at ha
      simp only [List.nil_append, List.cons.injEq] at hb
      exact ⟨ha, hb.1.symm⟩
    | cons a as =>
      simp only [List.cons_append, List.cons.injEq] at hb
      exact absurd h2' (h3 pre' it' as (by rw [ha, hb.1]))

theorem first_snoc {P : List Item → Item → Prop} {items pre : List Item} {it x : Item} :
    First P (items ++ [x]) pre it ↔ First P items pre it ∨
      (pre = items ∧ it = x ∧ P items x ∧ ∀ pre it, ¬ First P items pre it) := by
  constructor
  · rintro ⟨⟨post, h1⟩, h2, h3⟩
    rcases snoc_split h1 with ⟨rfl, rfl, -⟩ | ⟨post', h⟩
    · refine Or.inr ⟨rfl, rfl, h2, ?_⟩
      rintro pre' it' ⟨⟨post', h4⟩, h5, -⟩
      exact h3 pre' it' post' h4 h5
    · exact Or.inl ⟨⟨post', h⟩, h2, h3⟩
  · rintro (⟨⟨post, h1⟩, h2, h3⟩ | ⟨rfl, rfl, h2, h3⟩)
    · exact ⟨⟨post ++ [x], by rw [h1]; simp⟩, h2, h3⟩
    · refine ⟨⟨[], rfl⟩, h2, ?_⟩
      intro pre' it' post' h4 h5
      obtain ⟨p, i, h⟩ := first_of_mem h4 h5
      exact h3 p i h

theorem first_snoc_not {P : List Item → Item → Prop} {items pre : List Item} {it x : Item}
    (h : ¬ P items x) : First P (items ++ [x]) pre it ↔ First P items pre it := by
  rw [first_snoc]
  constructor
  · rintro (h' | h')
    · exact h'
    · exact absurd h'.2.2.1 h
  · exact Or.inl

theorem ex_first_snoc {P : List Item → Item → Prop} {items : List Item} {x : Item} :
    (∃ pre it, First P (items ++ [x]) pre it) ↔ (∃ pre it, First P items pre it) ∨ P items x := by
  constructor
  · rintro ⟨pre, it, h⟩
    rcases first_snoc.1 h with h | h
    · exact Or.inl ⟨pre, it, h⟩
    · exact Or.inr h.2.2.1
  · rintro (⟨pre, it, h⟩ | h)
    · exact ⟨pre, it, first_snoc.2 (Or.inl h)⟩
    · exact first_of_mem (post := []) rfl h

theorem first_nil {P : List Item → Item → Prop} {pre : List Item} {it : Item} : ¬ First P [] pre it := by
  rintro ⟨⟨post, h⟩, -⟩
  simp at h

/-! ## One item -/

/-- An item is added, errors being forgotten. -/
def step (valid : String → Bool) (force : Bool) (g : LGR) : Item → LGR
  | .ref i v c => (g.addReference valid v c (some i)).1
  | .base k refs => (g.addCp none (.seq k) { ref := refs, force := force }).1
  | .var k v t refs => (g.addVariant none (.seq k) (.seq v) t { ref := refs, force := force }).1

/-- Sequences are not empty. -/
def Proper : Item → Prop
  | .ref _ _ _ => True
  | .base k _ => k ≠ []
  | .var k v _ _ => k ≠ [] ∧ v ≠ []

theorem known_iff {valid : String → Bool} {items : List Item} {i : String} :
    known valid items i = true ↔ ∃ pre it, First (IsRef valid i) items pre it := by
  unfold known
  rw [Bool.and_eq_true, List.any_eq_true]
  constructor
  · rintro ⟨hv, it, hm, h⟩
    obtain ⟨pre, post, h1⟩ := List.append_of_mem hm
    refine first_of_mem h1 ⟨hv, ?_⟩
    cases it with
    | ref j v c =>
      simp only [beq_iff_eq] at h
      exact ⟨v, c, by rw [h]⟩
    | base k r => simp at h
    | var k v t r => simp at h
  · rintro ⟨pre, it, ⟨post, h1⟩, ⟨hv, v, c, rfl⟩, -⟩
    exact ⟨hv, .ref i v c, by rw [h1]; simp, by simp⟩

theorem known_refs {valid : String → Bool} {force : Bool} {items : List Item} {g : LGR}
    (h : Says valid force items g) (i : String) : known valid items i = (dget g.refs.refs i).isSome := by
  rw [Bool.eq_iff_iff, known_iff]
  constructor
  · rintro ⟨pre, it, hf⟩
    obtain ⟨v, c, rfl⟩ := hf.2.1.2
    have : dget g.refs.refs i = some ⟨v, c⟩ := (h.refs i ⟨v, c⟩).2 ⟨pre, hf⟩
    rw [this]; rfl
  · intro hs
    obtain ⟨r, hr⟩ := Option.isSome_iff_exists.1 hs
    obtain ⟨pre, hp⟩ := (h.refs i r).1 hr
    exact ⟨pre, _, hp⟩

theorem strict_good {valid : String → Bool} {force : Bool} {items : List Item} {g : LGR}
    (h : Says valid force items g) {refs : List String} :
    (force = false → Strict g { ref := refs, force := force }) ↔ RefsGood valid force items refs := by
  unfold Strict RefsGood RefsOk
  cases force with
  | true => simp
  | false => simp [known_refs h]

theorem knownRefs_eq {valid : String → Bool} {force : Bool} {items : List Item} {g : LGR}
    (h : Says valid force items g) {refs : List String} :
    knownRefs g { ref := refs, force := force } = refs.filter (known valid items) := by
  unfold knownRefs
  exact List.filter_congr (fun i _ => (known_refs h i).symm)

theorem base_ok {valid : String → Bool} {force : Bool} {items : List Item} {g : LGR}
    (h : Says valid force items g) {k : Seq} (hk : k ≠ []) {refs : List String} :
    (g.addCp none (.seq k) { ref := refs, force := force }).2 = .ok () ↔
      g.rep.lookup k = none ∧ RefsGood valid force items refs := by
  rw [add_cp_ok_iff, ← strict_good h]
  constructor
  · rintro ⟨s, hd, -, -, hl, hs⟩
    cases hd with
    | seq s hs' => exact ⟨hl, fun hf => (hs hf).1⟩
  · rintro ⟨hl, hs⟩
    exact ⟨k, .seq k hk, by intro _ v hv; simp at hv, by intro ck hck; simp at hck, hl,
      fun hf => ⟨hs hf, by simp [StrictTags]⟩⟩

theorem var_ok {valid : String → Bool} {force : Bool} {items : List Item} {g : LGR}
    (h : Says valid force items g) (hwf : WF g.rep) {k v : Seq} (hk : k ≠ []) (hv : v ≠ [])
    {t : Option String} {refs : List String} :
    (g.addVariant none (.seq k) (.seq v) t { ref := refs, force := force }).2 = .ok () ↔
      ∃ c, g.rep.lookup k = some c ∧ (∀ u ∈ c.getVariants, u.cp ≠ v) ∧ RefsGood valid force items refs := by
  rw [add_variant_ok_iff _ _ hwf, ← strict_good h]
  have key : ∀ c, EntryOf valid force items k c → (¬ HasVar c v none none ↔ ∀ u ∈ c.getVariants, u.cp ≠ v) := by
    intro c hc
    constructor
    · intro hn u hu he
      apply hn
      obtain ⟨pre, v', t', refs', -, rfl⟩ := (hc.2.2.2.1 u).1 hu
      exact ⟨_, hu, by simp only at he; simp [Variant.key, he]⟩
    · rintro hn ⟨u, hu, he⟩
      exact hn u hu (congrArg Prod.fst he)
  constructor
  · rintro ⟨s, v', c, hd, -, hd', -, -, hl, -, hh, hs⟩
    cases hd with
    | seq s hs' => cases hd' with
      | seq v' hs'' => exact ⟨c, hl, (key c (h.entry k c hl)).1 hh, hs⟩
  · rintro ⟨c, hl, hh, hs⟩
    have hc := h.entry k c hl
    exact ⟨k, v, c, .seq k hk, by intro _ v hv; simp at hv, .seq v hv, by intro _ v hv; simp at hv,
      by intro ck hck; simp at hck, hl, hc.2.1, (key c hc).2 hh, hs⟩

theorem total_none : Total none := by intro ck h; simp at h

theorem base_quiet {valid : String → Bool} {g : LGR} {k : Seq} (hk : k ≠ []) {refs : List String} {force : Bool} :
    quiet (g.addCp none (.seq k) { ref := refs, force := force }) =
      (step valid force g (.base k refs), .ok ()) := by
  unfold quiet
  simp only [step]
  rcases hr : g.addCp none (.seq k) { ref := refs, force := force } with ⟨g', o⟩
  cases o with
  | ok u => rfl
  | error e =>
    simp only
    rw [if_pos (addCp_error hk (o := { ref := refs, force := force }) total_none (by rw [hr])).1]

theorem var_quiet {valid : String → Bool} {g : LGR} {k v : Seq} (hk : k ≠ []) (hv : v ≠ []) {t : Option String}
    {refs : List String} {force : Bool} :
    quiet (g.addVariant none (.seq k) (.seq v) t { ref := refs, force := force }) =
      (step valid force g (.var k v t refs), .ok ()) := by
  unfold quiet
  simp only [step]
  rcases hr : g.addVariant none (.seq k) (.seq v) t { ref := refs, force := force } with ⟨g', o⟩
  cases o with
  | ok u => rfl
  | error e =>
    simp only
    rw [if_pos (addVariant_error hk hv (o := { ref := refs, force := force }) total_none (by rw [hr])).1]

theorem wf_step {valid : String → Bool} {force : Bool} {g : LGR} (h : WF g.rep) (it : Item) :
    WF (step valid force g it).rep := by
  cases it with
  | ref i v c =>
    simp only [step, LGR.addReference]
    cases g.refs.addReference valid v c (some i) with
    | error e => exact h
    | ok p => exact h
  | base k refs => exact C30.wf_addCp h _ _
  | var k v t refs => exact C30.wf_addVariant h _ _ _ _

theorem wf_foldl {valid : String → Bool} {force : Bool} (items : List Item) {g : LGR} (h : WF g.rep) :
    WF (items.foldl (step valid force) g).rep := by
  induction items generalizing g with
  | nil => exact h
  | cons it items ih => exact ih (wf_step h it)

theorem entry_other {valid : String → Bool} {force : Bool} {items : List Item} {x : Item} {k : Seq} {c : CharObj}
    (hb : (∃ pre it, First (IsBase valid force k) items pre it) ∨ ¬ IsBase valid force k items x)
    (hv : ∀ v, (∃ pre it, First (IsVar valid force k v) items pre it) ∨ ¬ IsVar valid force k v items x)
    (h : EntryOf valid force items k c) : EntryOf valid force (items ++ [x]) k c := by
  obtain ⟨h1, h2, ⟨pre, refs, h3, h4⟩, h5, h6⟩ := h
  refine ⟨h1, h2, ⟨pre, refs, first_snoc.2 (Or.inl h3), h4⟩, ?_, h6⟩
  intro u
  rw [h5]
  constructor
  · rintro ⟨p, v, t, r, hf, hu⟩
    exact ⟨p, v, t, r, first_snoc.2 (Or.inl hf), hu⟩
  · rintro ⟨p, v, t, r, hf, hu⟩
    rcases first_snoc.1 hf with hf | ⟨-, -, hP, hn⟩
    · exact ⟨p, v, t, r, hf, hu⟩
    · rcases hv v with ⟨p', it', h'⟩ | h'
      · exact absurd h' (hn _ _)
      · exact absurd hP h'

theorem varOf_other {valid : String → Bool} {force : Bool} {items : List Item} {x : Item} {k : Seq}
    (hv : ∀ v, (∃ pre it, First (IsVar valid force k v) items pre it) ∨ ¬ IsVar valid force k v items x)
    (u : Variant) : VarOf valid force (items ++ [x]) k u ↔ VarOf valid force items k u := by
  constructor
  · rintro ⟨p, v, t, r, hf, hu⟩
    rcases first_snoc.1 hf with hf | ⟨-, -, hP, hn⟩
    · exact ⟨p, v, t, r, hf, hu⟩
    · rcases hv v with ⟨p', it', h'⟩ | h'
      · exact absurd h' (hn _ _)
      · exact absurd hP h'
  · rintro ⟨p, v, t, r, hf, hu⟩
    exact ⟨p, v, t, r, first_snoc.2 (Or.inl hf), hu⟩

theorem says_lookup {valid : String → Bool} {force : Bool} {items : List Item} {g : LGR}
    (h : Says valid force items g) (k : Seq) :
    (∃ pre it, First (IsBase valid force k) items pre it) ↔ (g.rep.lookup k).isSome = true := by
  refine ⟨h.all k, fun hs => ?_⟩
  obtain ⟨c, hc⟩ := Option.isSome_iff_exists.1 hs
  obtain ⟨-, -, ⟨pre, refs, hf, -⟩, -⟩ := h.entry k c hc
  exact ⟨pre, _, hf⟩

/-- Nothing changes when the item is not a first. -/
theorem says_same {valid : String → Bool} {force : Bool} {items : List Item} {g : LGR} {x : Item}
    (h : Says valid force items g)
    (hr : ∀ i, (∃ pre it, First (IsRef valid i) items pre it) ∨ ¬ IsRef valid i items x)
    (hb : ∀ k, (∃ pre it, First (IsBase valid force k) items pre it) ∨ ¬ IsBase valid force k items x)
    (hv : ∀ k v, (∃ pre it, First (IsVar valid force k v) items pre it) ∨ ¬ IsVar valid force k v items x) :
    Says valid force (items ++ [x]) g := by
  refine ⟨?_, ?_, ?_, ?_, h.ranges, h.tags⟩
  · intro i r
    rw [h.refs]
    constructor
    · rintro ⟨p, hp⟩; exact ⟨p, first_snoc.2 (Or.inl hp)⟩
    · rintro ⟨p, hp⟩
      rcases first_snoc.1 hp with hp | ⟨-, -, hP, hn⟩
      · exact ⟨p, hp⟩
      · rcases hr i with ⟨p', it', h'⟩ | h'
        · exact absurd h' (hn _ _)
        · exact absurd hP h'
  · intro k c hc
    exact entry_other (hb k) (hv k) (h.entry k c hc)
  · intro k hk
    rcases ex_first_snoc.1 hk with hk | hk
    · exact h.all k hk
    · rcases hb k with h' | h'
      · exact h.all k h'
      · exact absurd hk h'
  · intro t
    rw [h.types]
    constructor
    · rintro ⟨k, u, hu, ht⟩; exact ⟨k, u, (varOf_other (hv k) u).2 hu, ht⟩
    · rintro ⟨k, u, hu, ht⟩; exact ⟨k, u, (varOf_other (hv k) u).1 hu, ht⟩

theorem says_ref {valid : String → Bool} {force : Bool} {items : List Item} {g : LGR}
    (h : Says valid force items g) (i v : String) (c : Option String) :
    Says valid force (items ++ [.ref i v c]) (step valid force g (.ref i v c)) := by
  have nb : ∀ k, ¬ IsBase valid force k items (.ref i v c) := by rintro k ⟨r, h', -⟩; simp at h'
  have nv : ∀ k w, ¬ IsVar valid force k w items (.ref i v c) := by rintro k w ⟨t, r, h', -⟩; simp at h'
  simp only [step, LGR.addReference, RefManager.addReference]
  by_cases hk : (dget g.refs.refs i).isSome = true
  · rw [if_pos hk]
    refine says_same h (fun j => ?_) (fun k => Or.inr (nb k)) (fun k w => Or.inr (nv k w))
    by_cases hj : j = i
    · subst hj
      rw [← known_refs h, known_iff] at hk
      exact Or.inl hk
    · right
      rintro ⟨-, v', c', he⟩
      simp only [Item.ref.injEq] at he
      exact hj he.1.symm
  · rw [if_neg hk]
    by_cases hval : valid i = false
    · rw [if_pos hval]
      refine says_same h (fun j => ?_) (fun k => Or.inr (nb k)) (fun k w => Or.inr (nv k w))
      right
      rintro ⟨hj, v', c', he⟩
      simp only [Item.ref.injEq] at he
      rw [← he.1, hval] at hj
      simp at hj
    · rw [if_neg hval]
      have hval : valid i = true := by simpa using hval
      rw [← known_refs h, known_iff] at hk
      refine ⟨?_, ?_, ?_, ?_, h.ranges, h.tags⟩
      · intro j r
        simp only
        rw [dget_dset]
        by_cases hj : i = j
        · subst hj
          rw [if_pos rfl]
          constructor
          · intro he
            rw [← Option.some.inj he]
            exact ⟨items, first_snoc.2 (Or.inr ⟨rfl, rfl, ⟨hval, v, c, rfl⟩, fun p it hf => hk ⟨p, it, hf⟩⟩)⟩
          · rintro ⟨p, hp⟩
            rcases first_snoc.1 hp with hp | ⟨-, he, -⟩
            · exact absurd ⟨p, _, hp⟩ hk
            · simp only [Item.ref.injEq, true_and] at he
              rw [← he.1, ← he.2]
        · rw [if_neg hj, h.refs]
          have hn : ¬ IsRef valid j items (.ref i v c) := by
            rintro ⟨-, v', c', he⟩
            simp only [Item.ref.injEq] at he
            exact hj he.1
          constructor
          · rintro ⟨p, hp⟩; exact ⟨p, (first_snoc_not hn).2 hp⟩
          · rintro ⟨p, hp⟩; exact ⟨p, (first_snoc_not hn).1 hp⟩
      · intro k e he
        exact entry_other (Or.inr (nb k)) (fun w => Or.inr (nv k w)) (h.entry k e he)
      · intro k hk'
        rcases ex_first_snoc.1 hk' with hk' | hk'
        · exact h.all k hk'
        · exact absurd hk' (nb k)
      · intro t
        simp only
        rw [h.types]
        constructor
        · rintro ⟨k, u, hu, ht⟩; exact ⟨k, u, (varOf_other (fun w => Or.inr (nv k w)) u).2 hu, ht⟩
        · rintro ⟨k, u, hu, ht⟩; exact ⟨k, u, (varOf_other (fun w => Or.inr (nv k w)) u).1 hu, ht⟩

theorem ref_ex {valid : String → Bool} {items : List Item} {x : Item} (hx : ∀ i v c, x ≠ .ref i v c)
    (i : String) : ¬ IsRef valid i items x := by
  rintro ⟨-, v, c, h⟩; exact hx i v c h

theorem says_base {valid : String → Bool} {force : Bool} {items : List Item} {g : LGR}
    (h : Says valid force items g) {k : Seq} (hk : k ≠ []) (refs : List String) :
    Says valid force (items ++ [.base k refs]) (step valid force g (.base k refs)) := by
  have nr := ref_ex (valid := valid) (items := items) (x := .base k refs) (by simp)
  have nv : ∀ k' w, ¬ IsVar valid force k' w items (.base k refs) := by rintro k w ⟨t, r, h', -⟩; simp at h'
  have nb : ∀ k', k' ≠ k → ¬ IsBase valid force k' items (.base k refs) := by
    rintro k' hk' ⟨r, h', -⟩
    simp only [Item.base.injEq] at h'
    exact hk' h'.1.symm
  simp only [step]
  by_cases hok : (g.addCp none (.seq k) { ref := refs, force := force }).2 = .ok ()
  · obtain ⟨hl, hg⟩ := (base_ok h hk).1 hok
    have hno : ∀ p it, ¬ First (IsBase valid force k) items p it := by
      intro p it hf
      have := h.all k ⟨p, it, hf⟩
      rw [hl] at this; simp at this
    obtain ⟨s, hd, -, hlook, hran, htag, href, htyp, -⟩ := add_cp_effect none g (.seq k) _ hok
    cases hd with
    | seq s hs' =>
    rw [knownRefs_eq h] at hlook
    refine ⟨?_, ?_, ?_, ?_, by rw [hran, h.ranges], ?_⟩
    · intro i r
      rw [href, h.refs]
      constructor
      · rintro ⟨p, hp⟩; exact ⟨p, (first_snoc_not (nr i)).2 hp⟩
      · rintro ⟨p, hp⟩; exact ⟨p, (first_snoc_not (nr i)).1 hp⟩
    · intro k' c hc
      rw [hlook] at hc
      by_cases hkk : k' = k
      · subst hkk
        rw [if_pos rfl] at hc
        rw [← Option.some.inj hc]
        refine ⟨rfl, rfl, ⟨items, refs, first_snoc.2 (Or.inr ⟨rfl, rfl, ⟨refs, rfl, hg⟩, hno⟩), rfl⟩, ?_, ?_⟩
        · intro u
          rw [varOf_other (fun w => Or.inr (nv k' w))]
          constructor
          · intro hu; simp [CharObj.getVariants, sortAsc] at hu
          · rintro ⟨p, v, t, r, hf, -⟩
            obtain ⟨⟨post, he⟩, ⟨t', r', -, -, p', it', hf'⟩, -⟩ := hf
            obtain ⟨⟨post', he'⟩, hb', -⟩ := hf'
            exfalso
            obtain ⟨p2, it2, h2⟩ := first_of_mem (P := IsBase valid force k') (items := items)
              (pre := p') (it := it') (post := post' ++ .var k' v t r :: post) (by rw [he, he']; simp) hb'
            exact hno _ _ h2
        · simp [CharObj.getVariants, sortAsc]
      · rw [if_neg hkk] at hc
        exact entry_other (Or.inr (nb k' hkk)) (fun w => Or.inr (nv k' w)) (h.entry k' c hc)
    · intro k' hk'
      rw [hlook]
      by_cases hkk : k' = k
      · rw [if_pos hkk]; rfl
      · rw [if_neg hkk]
        rcases ex_first_snoc.1 hk' with hk' | hk'
        · exact h.all k' hk'
        · exact absurd hk' (nb k' hkk)
    · intro t
      rw [htyp, h.types]
      constructor
      · rintro ⟨k', u, hu, ht⟩; exact ⟨k', u, (varOf_other (fun w => Or.inr (nv k' w)) u).2 hu, ht⟩
      · rintro ⟨k', u, hu, ht⟩; exact ⟨k', u, (varOf_other (fun w => Or.inr (nv k' w)) u).1 hu, ht⟩
    · intro t x hx
      rcases (htag t x).1 hx with hx | hx
      · exact h.tags t x hx
      · simp at hx
  · have hsame : (g.addCp none (.seq k) { ref := refs, force := force }).1 = g := by
      rcases hr : (g.addCp none (.seq k) { ref := refs, force := force }).2 with e | u
      · exact C02.add_cp_atomic _ _ _ _ e hr
      · exact absurd hr hok
    rw [hsame]
    refine says_same h (fun i => Or.inr (nr i)) (fun k' => ?_) (fun k' w => Or.inr (nv k' w))
    by_cases hkk : k' = k
    · subst hkk
      by_cases hl : g.rep.lookup k' = none
      · right
        rintro ⟨r, he, hg⟩
        simp only [Item.base.injEq, true_and] at he
        subst he
        exact hok ((base_ok h hk).2 ⟨hl, hg⟩)
      · left
        rw [says_lookup h]
        exact Option.isSome_iff_ne_none.2 hl
    · exact Or.inr (nb k' hkk)

theorem says_var {valid : String → Bool} {force : Bool} {items : List Item} {g : LGR}
    (h : Says valid force items g) (hwf : WF g.rep) {k v : Seq} (hk : k ≠ []) (hv : v ≠ []) (t : Option String)
    (refs : List String) :
    Says valid force (items ++ [.var k v t refs]) (step valid force g (.var k v t refs)) := by
  have nr := ref_ex (valid := valid) (items := items) (x := .var k v t refs) (by simp)
  have nb : ∀ k', ¬ IsBase valid force k' items (.var k v t refs) := by rintro k' ⟨r, h', -⟩; simp at h'
  have nv : ∀ k' v', ¬ (k' = k ∧ v' = v) → ¬ IsVar valid force k' v' items (.var k v t refs) := by
    rintro k' v' hk' ⟨t', r, h', -⟩
    simp only [Item.var.injEq] at h'
    exact hk' ⟨h'.1.symm, h'.2.1.symm⟩
  have hwf' := wf_step (valid := valid) (force := force) hwf (.var k v t refs)
  simp only [step] at hwf' ⊢
  by_cases hok : (g.addVariant none (.seq k) (.seq v) t { ref := refs, force := force }).2 = .ok ()
  · obtain ⟨c, hl, hnew, hg⟩ := (var_ok h hwf hk hv).1 hok
    have hc := h.entry k c hl
    have hno : ∀ p it, ¬ First (IsVar valid force k v) items p it := by
      intro p it hf
      obtain ⟨t', r', rfl, -⟩ := hf.2.1
      exact hnew _ ((hc.2.2.2.1 _).2 ⟨p, v, t', r', hf, rfl⟩) rfl
    have hbase : ∃ p it, First (IsBase valid force k) items p it := by
      rw [says_lookup h, hl]; rfl
    obtain ⟨s, v', c1, c', hd, hd', hl1, -, hcp, hran', hattr, hvars, hlook, hran, htyp, htag, href, -⟩ :=
      add_variant_effect none g hwf (.seq k) (.seq v) t _ hok
    cases hd with
    | seq s hs' =>
    cases hd' with
    | seq v' hs'' =>
    rw [hl] at hl1
    obtain rfl := Option.some.inj hl1
    rw [knownRefs_eq h] at hvars
    have hfirst : First (IsVar valid force k v) (items ++ [.var k v t refs]) items (.var k v t refs) :=
      first_snoc.2 (Or.inr ⟨rfl, rfl, ⟨t, refs, rfl, hg, hbase⟩, hno⟩)
    have hvo : ∀ u, VarOf valid force (items ++ [.var k v t refs]) k u ↔ VarOf valid force items k u ∨
        u = ⟨v, t, none, none, none, refs.filter (known valid items)⟩ := by
      intro u
      constructor
      · rintro ⟨p, v', t', r', hf, hu⟩
        rcases first_snoc.1 hf with hf | ⟨rfl, he, -, -⟩
        · exact Or.inl ⟨p, v', t', r', hf, hu⟩
        · simp only [Item.var.injEq, true_and] at he
          obtain ⟨rfl, rfl, rfl⟩ := he
          exact Or.inr hu
      · rintro (⟨p, v', t', r', hf, hu⟩ | hu)
        · exact ⟨p, v', t', r', first_snoc.2 (Or.inl hf), hu⟩
        · exact ⟨items, v, t, refs, hfirst, hu⟩
    refine ⟨?_, ?_, ?_, ?_, by rw [hran, h.ranges], ?_⟩
    · intro i r
      rw [href, h.refs]
      constructor
      · rintro ⟨p, hp⟩; exact ⟨p, (first_snoc_not (nr i)).2 hp⟩
      · rintro ⟨p, hp⟩; exact ⟨p, (first_snoc_not (nr i)).1 hp⟩
    · intro k' e he
      have he0 := he
      rw [hlook] at he
      by_cases hkk : k' = k
      · subst hkk
        rw [if_pos rfl] at he
        obtain rfl := Option.some.inj he
        obtain ⟨-, -, ⟨pre, r, hf, ha⟩, hvs, -⟩ := hc
        refine ⟨hcp, hran', ⟨pre, r, first_snoc.2 (Or.inl hf), by rw [hattr, ha]⟩, ?_, ?_⟩
        · intro u
          rw [hvars, hvo, hvs]
        · exact C08.getVariants_keys_nodup (lookup_charWF hwf' he0).varWF
      · rw [if_neg hkk] at he
        exact entry_other (Or.inr (nb k')) (fun w => Or.inr (nv k' w (by simp [hkk]))) (h.entry k' e he)
    · intro k' hk'
      rw [hlook]
      by_cases hkk : k' = k
      · rw [if_pos hkk]; rfl
      · rw [if_neg hkk]
        rcases ex_first_snoc.1 hk' with hk' | hk'
        · exact h.all k' hk'
        · exact absurd hk' (nb k')
    · intro t'
      rw [htyp, h.types]
      constructor
      · rintro (⟨k', u, hu, ht⟩ | rfl)
        · by_cases hkk : k' = k
          · subst hkk; exact ⟨k', u, (hvo u).2 (Or.inl hu), ht⟩
          · exact ⟨k', u, (varOf_other (fun w => Or.inr (nv k' w (by simp [hkk]))) u).2 hu, ht⟩
        · exact ⟨k, _, (hvo _).2 (Or.inr rfl), rfl⟩
      · rintro ⟨k', u, hu, ht⟩
        by_cases hkk : k' = k
        · subst hkk
          rcases (hvo u).1 hu with hu | rfl
          · exact Or.inl ⟨k', u, hu, ht⟩
          · exact Or.inr ht.symm
        · exact Or.inl ⟨k', u, (varOf_other (fun w => Or.inr (nv k' w (by simp [hkk]))) u).1 hu, ht⟩
    · intro t' x hx
      unfold tagSet at hx
      rw [htag] at hx
      exact h.tags t' x hx
  · have hsame : (g.addVariant none (.seq k) (.seq v) t { ref := refs, force := force }).1 = g := by
      rcases hr : (g.addVariant none (.seq k) (.seq v) t { ref := refs, force := force }).2 with e | u
      · exact C02.add_variant_atomic _ _ _ _ _ _ e hr
      · exact absurd hr hok
    rw [hsame]
    refine says_same h (fun i => Or.inr (nr i)) (fun k' => Or.inr (nb k')) (fun k' w => ?_)
    by_cases hkk : k' = k ∧ w = v
    · obtain ⟨rfl, rfl⟩ := hkk
      by_cases hP : IsVar valid force k' w items (.var k' w t refs)
      · left
        obtain ⟨t', r', he, hg, hb⟩ := hP
        simp only [Item.var.injEq, true_and] at he
        obtain ⟨rfl, rfl⟩ := he
        rw [says_lookup h] at hb
        obtain ⟨c, hc⟩ := Option.isSome_iff_exists.1 hb
        by_contra hno
        refine hok ((var_ok h hwf hk hv).2 ⟨c, hc, ?_, hg⟩)
        rintro u hu rfl
        obtain ⟨p, v', t', r', hf, rfl⟩ := ((h.entry k' c hc).2.2.2.1 u).1 hu
        exact hno ⟨p, _, hf⟩
      · exact Or.inr hP
    · exact Or.inr (nv k' w hkk)

theorem says_empty (valid : String → Bool) (force b : Bool) : Says valid force [] { raiseInvalid := b } := by
  refine ⟨?_, ?_, ?_, ?_, rfl, ?_⟩
  · intro i r
    constructor
    · intro h; simp [dget] at h
    · rintro ⟨p, h⟩; exact absurd h first_nil
  · intro k c h
    cases k with
    | nil => simp [lookup] at h
    | cons x k => simp [lookup, bucket, dget] at h
  · rintro k ⟨p, it, h⟩; exact absurd h first_nil
  · intro t
    constructor
    · intro h; simp at h
    · rintro ⟨k, u, ⟨p, v, t, r, h, -⟩, -⟩; exact absurd h first_nil
  · intro t x hx; simp [tagSet, dget] at hx

/-- The items, added one after the other, give what they say. -/
theorem says_items (valid : String → Bool) (force b : Bool) (items : List Item) (h : ∀ it ∈ items, Proper it) :
    Says valid force items (items.foldl (step valid force) { raiseInvalid := b }) := by
  induction items using List.reverseRecOn with
  | nil => exact says_empty valid force b
  | append_singleton items x ih =>
    have ih := ih (fun it hit => h it (by simp [hit]))
    rw [List.foldl_append, List.foldl_cons, List.foldl_nil]
    have hx := h x (by simp)
    cases x with
    | ref i v c => exact says_ref ih i v c
    | base k refs => exact says_base ih hx refs
    | var k v t refs => exact says_var ih (wf_foldl items wf_empty) hx.1 hx.2 t refs

end Lgr.Props.TableItems

import Verif.Props.LgrEdit

/-!
# C04 (LGR part): `LGR.add_range`
-/

namespace Lgr.Props
open Lgr LGR Repertoire

/-- What `_insert_list` stores for a code point of a collapsed range. -/
def insChar (a : Attrs) (p : Nat × Nat) (x : Nat) : CharObj :=
  if p.1 = p.2 then { cp := [x], attrs := a } else rangeChar p.1 p.2 a x

theorem single_wf (s : Seq) (a : Attrs) : CharWF { cp := s, attrs := a } :=
  ⟨CharObj.varWF_mk, by simp⟩

/-- One round of `_insert_list`. -/
def insertOne (a : Attrs) (r : Repertoire) (p : Nat × Nat) : Repertoire × Except Err Unit :=
  if p.1 = p.2 then
    match r.addChar [p.1] a with
    | .error e => (r, .error e)
    | .ok r' => (r', .ok ())
  else r.addRange p.1 p.2 a true

theorem insertRanges_cons (a : Attrs) (r : Repertoire) (p : Nat × Nat) (rs) :
    insertRanges a r (p :: rs) =
      match insertOne a r p with
      | (r', .error e) => (r', .error e)
      | (r', .ok ()) => insertRanges a r' rs := by
  obtain ⟨f, l⟩ := p
  simp only [insertRanges, insertOne]
  by_cases h : f = l
  · simp only [h, if_true]
    cases r.addChar [l] a <;> rfl
  · simp only [h, if_false]
    cases r.addRange f l a true with
    | mk r' o => cases o <;> rfl

theorem insertOne_spec (a : Attrs) {r : Repertoire} (h : WF r) {p : Nat × Nat} (hp : p.1 ≤ p.2) :
    WF (insertOne a r p).1 ∧
    ((insertOne a r p).2 = .ok () ↔ ∀ x, p.1 ≤ x → x ≤ p.2 → r.lookup [x] = none) ∧
    ((insertOne a r p).2 = .ok () →
      (∀ x, p.1 ≤ x → x ≤ p.2 → (insertOne a r p).1.lookup [x] = some (insChar a p x)) ∧
      (∀ k, (∀ x, p.1 ≤ x → x ≤ p.2 → k ≠ [x]) → (insertOne a r p).1.lookup k = r.lookup k) ∧
      (insertOne a r p).1.ranges = r.ranges ++ (if p.1 = p.2 then [] else [p])) := by
  unfold insertOne
  by_cases hfl : p.1 = p.2
  · simp only [hfl, if_true]
    have hiff := C50.addChar_ok_iff (r := r) (s := [p.2]) (a := a) (by simp)
    cases hc : r.addChar [p.2] a with
    | error e =>
      refine ⟨h, ?_, by simp⟩
      simp only [reduceCtorEq, false_iff]
      intro hall
      obtain ⟨r', hr'⟩ := hiff.2 (hall _ (le_refl _) (le_refl _))
      rw [hc] at hr'; simp at hr'
    | ok r' =>
      obtain ⟨_, hr'⟩ := C50.addChar_ok hc
      refine ⟨addCharObj_wf h (single_wf _ _) hr', ?_, ?_⟩
      · refine ⟨fun _ x h1 h2 => ?_, fun _ => rfl⟩
        have : x = p.2 := by omega
        subst this
        exact hiff.1 ⟨r', hc⟩
      · intro _
        refine ⟨?_, ?_, ?_⟩
        · intro x h1 h2
          have : x = p.2 := by omega
          subst this
          simp only
          rw [lookup_addCharObj hr', if_pos rfl]
          simp [insChar, hfl]
        · intro k hk
          simp only
          rw [lookup_addCharObj hr', if_neg (hk p.2 (le_refl _) (le_refl _))]
        · obtain ⟨_, _, _, h5, _⟩ := addCharObj_form hr'
          simp [h5]
  · simp only [hfl, if_false]
    have hlt : p.1 < p.2 := by omega
    unfold Repertoire.addRange
    simp only [hlt, not_true, if_false, if_true, Bool.false_eq_true]
    obtain ⟨h1, h2, h3⟩ := addRangeLoop_spec (f := p.1) (l := p.2) (a := a) (cpRange p.1 p.2)
      (fun x hx => mem_cpRange.1 hx) (cpRange_nodup _ _) r h
    generalize hr : addRangeLoop p.1 p.2 a r (cpRange p.1 p.2) = res at h1 h2 h3
    obtain ⟨r2, o⟩ := res
    simp only at h1 h2 h3
    rcases h3 with ⟨rfl, j2, j3⟩ | ⟨pre, x, post, j1, j2, rfl, j4⟩
    · refine ⟨wf_ranges h1 _, ?_, ?_⟩
      · exact ⟨fun _ x a b => j2 x (mem_cpRange.2 ⟨a, b⟩), fun _ => rfl⟩
      · intro _
        refine ⟨?_, ?_, ?_⟩
        · intro x a b
          simp only [lookup_ranges]
          rw [j3, if_pos ⟨x, mem_cpRange.2 ⟨a, b⟩, rfl⟩]
          simp [insChar, hfl]
        · intro k hk
          simp only [lookup_ranges]
          rw [j3, if_neg]
          rintro ⟨x, hx, rfl⟩
          exact hk x (mem_cpRange.1 hx).1 (mem_cpRange.1 hx).2 rfl
        · simp [h2]
    · refine ⟨h1, ?_, by simp⟩
      simp only [reduceCtorEq, false_iff]
      intro hall
      have hx : x ∈ cpRange p.1 p.2 := by rw [j1]; simp
      rw [hall x (mem_cpRange.1 hx).1 (mem_cpRange.1 hx).2] at j2
      simp at j2

theorem insertRanges_spec (a : Attrs) (rs : List (Nat × Nat)) (hp : ∀ p ∈ rs, p.1 ≤ p.2)
    (hd : rs.Pairwise (fun a b => a.2 < b.1)) {r : Repertoire} (h : WF r) :
    WF (insertRanges a r rs).1 ∧
    ((insertRanges a r rs).2 = .ok () ↔ ∀ x, C05.Covers rs x → r.lookup [x] = none) ∧
    ((insertRanges a r rs).2 = .ok () →
      (∀ p ∈ rs, ∀ x, p.1 ≤ x → x ≤ p.2 →
        (insertRanges a r rs).1.lookup [x] = some (insChar a p x)) ∧
      (∀ k, (∀ x, C05.Covers rs x → k ≠ [x]) → (insertRanges a r rs).1.lookup k = r.lookup k) ∧
      (insertRanges a r rs).1.ranges = r.ranges ++ rs.filter (fun p => p.1 ≠ p.2)) := by
  induction rs generalizing r with
  | nil => simp [insertRanges, h, C05.Covers]
  | cons p rs ih =>
    rw [insertRanges_cons]
    rw [List.pairwise_cons] at hd
    obtain ⟨h1, h2, h3⟩ := insertOne_spec a h (hp p (by simp))
    generalize insertOne a r p = res at h1 h2 h3
    obtain ⟨r', o⟩ := res
    simp only at h1 h2 h3
    cases o with
    | error e =>
      refine ⟨h1, ?_, by simp⟩
      simp only [reduceCtorEq, false_iff] at h2 ⊢
      intro hall
      exact h2 fun x a b => hall x ⟨p, by simp, a, b⟩
    | ok u =>
      obtain ⟨h4, h5, h6⟩ := h3 rfl
      have h2' := h2.1 rfl
      obtain ⟨i1, i2, i3⟩ := ih (fun q hq => hp q (by simp [hq])) hd.2 h1
      have hne : ∀ x, C05.Covers rs x → ∀ y, p.1 ≤ y → y ≤ p.2 → [x] ≠ [y] := by
        rintro x ⟨q, hq, hx⟩ y hy1 hy2 he
        have := hd.1 q hq
        simp only [List.cons.injEq, and_true] at he
        omega
      refine ⟨i1, ?_, ?_⟩
      · rw [i2]
        constructor
        · rintro hall x ⟨q, hq, hx⟩
          rcases List.mem_cons.1 hq with rfl | hq
          · exact h2' x hx.1 hx.2
          · rw [← h5 [x] (fun y => hne x ⟨q, hq, hx⟩ y)]
            exact hall x ⟨q, hq, hx⟩
        · intro hall x hx
          rw [h5 [x] (fun y => hne x hx y)]
          obtain ⟨q, hq, hx⟩ := hx
          exact hall x ⟨q, List.mem_cons_of_mem _ hq, hx⟩
      · intro hok
        obtain ⟨i4, i5, i6⟩ := i3 hok
        refine ⟨?_, ?_, ?_⟩
        · intro q hq x hx1 hx2
          rcases List.mem_cons.1 hq with rfl | hq
          · rw [i5 [x], h4 x hx1 hx2]
            intro y hy he
            exact hne y hy x hx1 hx2 he.symm
          · exact i4 q hq x hx1 hx2
        · intro k hk
          rw [i5 k, h5 k]
          · intro x a b; exact hk x ⟨p, by simp, a, b⟩
          · rintro x ⟨q, hq, hx⟩; exact hk x ⟨q, List.mem_cons_of_mem _ hq, hx⟩
        · rw [i6, h6, List.append_assoc]
          by_cases hpe : p.1 = p.2
          · simp [hpe]
          · simp [hpe]

/-- The statuses the selection loop of `add_range` keeps, and those it does not raise on. -/
def keeps (raise : Bool) : Status → Bool
  | none => true
  | some (.notInRepertoire _) => true
  | some (.invalidIdna _) => !raise
  | _ => false

def accepts (raise lenient force : Bool) : Status → Bool
  | none => true
  | some (.notInRepertoire _) => lenient
  | some (.invalidIdna _) => !raise || force
  | some (.charAlreadyExists _) => force
  | _ => false

theorem selectCps_ok {raise lenient force : Bool} {sts : List (Nat × Status)} {cps : List Nat} :
    selectCps raise lenient force sts = .ok cps ↔
      cps = (sts.filter (fun p => keeps raise p.2)).map Prod.fst ∧
        ∀ p ∈ sts, accepts raise lenient force p.2 = true := by
  induction sts generalizing cps with
  | nil =>
    simp only [selectCps, Except.ok.injEq]
    exact ⟨fun h => ⟨h.symm, by simp⟩, fun h => h.1.symm⟩
  | cons p sts ih =>
    obtain ⟨x, st⟩ := p
    have keep : (match selectCps raise lenient force sts with
        | .error e => .error e
        | .ok cps => .ok (x :: cps) : Except Err (List Nat)) = .ok cps ↔
        cps = x :: (sts.filter (fun p => keeps raise p.2)).map Prod.fst ∧
        ∀ p ∈ sts, accepts raise lenient force p.2 = true := by
      cases hs : selectCps raise lenient force sts with
      | error e =>
        simp only [reduceCtorEq, false_iff, not_and]
        intro _ hall
        rw [ih.2 ⟨rfl, hall⟩] at hs; simp at hs
      | ok l =>
        obtain ⟨h1, h2⟩ := ih.1 hs
        simp only [Except.ok.injEq, h1]
        exact ⟨fun h => ⟨h.symm, h2⟩, fun h => h.1.symm⟩
    have split_all : (∀ p ∈ (x, st) :: sts, accepts raise lenient force p.2 = true) ↔
        accepts raise lenient force st = true ∧ ∀ p ∈ sts, accepts raise lenient force p.2 = true := by
      simp
    rw [split_all]
    unfold selectCps
    simp only [List.filter_cons]
    cases st with
    | none =>
      simp only [keeps, accepts, if_true, List.map_cons, true_and]
      exact keep
    | some e =>
      cases e with
      | notInRepertoire y =>
        cases lenient with
        | true =>
          simp only [keeps, accepts, not_true, if_false, if_true, List.map_cons, true_and]
          exact keep
        | false => simp [accepts]
      | invalidIdna y =>
        cases raise with
        | false =>
          simp only [keeps, accepts, Bool.false_eq_true, not_false_iff, if_true, List.map_cons,
            Bool.not_false, Bool.true_or, true_and]
          exact keep
        | true =>
          cases force with
          | false => simp [accepts]
          | true =>
            simp only [keeps, accepts, not_true, if_false, Bool.not_true, Bool.false_eq_true,
              Bool.or_true, true_and]
            exact ih
      | charAlreadyExists y =>
        cases force with
        | false => simp [accepts]
        | true =>
          simp only [keeps, accepts, not_true, if_false, Bool.false_eq_true, true_and]
          exact ih
      | _ => simp [accepts]

theorem checkRange_ok_iff {db : UniDb} {vrep : VRep} {g : LGR} {f l : Nat} :
    (∃ sts, (g.checkRange db f l vrep).2 = .ok sts) ↔
      f ≤ l ∧ ∀ x, f ≤ x → x ≤ l → C40.Valid db x → ∀ check, vrep = some check →
        ∃ b, check x = .ok b := by
  constructor
  · rintro ⟨sts, h⟩
    obtain ⟨h1, h2, h3, -⟩ := C40.check_range_classifies db vrep g f l sts h
    refine ⟨h1, ?_⟩
    intro x hx1 hx2 hv check hc
    have : x ∈ sts.map Prod.fst := by rw [h2, List.mem_range'_1]; omega
    obtain ⟨p, hp, rfl⟩ := List.mem_map.1 this
    have := h3 p hp
    generalize p.2 = st at this
    cases this with
    | fine _ h _ => exact ⟨true, h check hc⟩
    | invalid h => exact absurd hv h
    | outside c _ h4 h5 => rw [h4] at hc; cases hc; exact ⟨false, h5⟩
    | present _ h _ => exact ⟨true, h check hc⟩
  · rintro ⟨h1, h2⟩
    unfold checkRange
    rw [if_neg (by omega)]
    rcases (C40.loop_spec db vrep g (cpRange f l)).2 with ⟨sts, h, _⟩ | ⟨e, c, y, hy, h3, h4, h5, h6⟩
    · exact ⟨sts, h⟩
    · obtain ⟨b, hb⟩ := h2 y (mem_cpRange.1 hy).1 (mem_cpRange.1 hy).2 h5 c h4
      rw [h6] at hb; simp at hb

namespace C04
open C40 (Valid Says)
open C50 (Strict knownRefs tagSet)

/-- The code point is selected for insertion: IDNA-valid (or the check is off), and either reported
outside the validating repertoire (before any look at the LGR) or absent from the LGR. -/
def Selected (db : UniDb) (g : LGR) (o : Opts) (x : Nat) : Prop :=
  (¬ Valid db x ∧ g.raiseInvalid = false) ∨
  (Valid db x ∧ ((∃ check, o.vrep = some check ∧ check x = .ok false) ∨ g.rep.lookup [x] = none))

/-- A code point of the LGR that `add_range` nevertheless tries to insert. -/
def Clash (db : UniDb) (g : LGR) (o : Opts) (x : Nat) : Prop :=
  (g.rep.lookup [x]).isSome ∧ ((¬ Valid db x ∧ g.raiseInvalid = false) ∨
    (Valid db x ∧ ∃ check, o.vrep = some check ∧ check x = .ok false))

/-- The outcome of the checks of `add_range`. -/
structure Passes (db : UniDb) (g : LGR) (f l : Nat) (o : Opts) (cps : List Nat) : Prop where
  order : f ≤ l
  mem : ∀ x, x ∈ cps ↔ (f ≤ x ∧ x ≤ l) ∧ Selected db g o x
  nodup : cps.Nodup
  vrep : ∀ x, f ≤ x → x ≤ l → Valid db x → ∀ check, o.vrep = some check → ∃ b, check x = .ok b
  strict : o.force = false → Strict g o ∧ o.tag.Nodup
  accept : o.force = false → ∀ x, f ≤ x → x ≤ l →
    (Valid db x ∨ g.raiseInvalid = false) ∧
    (Valid db x → ∀ check, o.vrep = some check → check x = .ok true → g.rep.lookup [x] = none) ∧
    (Valid db x → o.vrep = none → g.rep.lookup [x] = none) ∧
    (Valid db x → o.override = false → ∀ check, o.vrep = some check → check x = .ok true)

theorem keeps_iff {db : UniDb} {g : LGR} {o : Opts} {x : Nat} {st : Status}
    (h : Says db o.vrep g x st) : keeps g.raiseInvalid st = true ↔ Selected db g o x := by
  unfold Selected
  cases h with
  | fine h1 h2 h3 => simp [keeps, h1, h3]
  | invalid h => simp [keeps, h]
  | outside c h1 h2 h3 => simp only [keeps, true_iff]; exact Or.inr ⟨h1, Or.inl ⟨c, h2, h3⟩⟩
  | present h1 h2 h3 =>
    simp only [keeps, Bool.false_eq_true, false_iff, not_or, not_and]
    refine ⟨fun h => absurd h1 h, fun _ => ?_⟩
    refine ⟨?_, ?_⟩
    · rintro ⟨c, h4, h5⟩; rw [h2 c h4] at h5; simp at h5
    · intro hn; rw [hn] at h3; simp at h3

theorem accepts_iff {db : UniDb} {g : LGR} {o : Opts} {x : Nat} {st : Status}
    (h : Says db o.vrep g x st) : accepts g.raiseInvalid (o.override || o.force) o.force st = true ↔
      (o.force = false → (Valid db x ∨ g.raiseInvalid = false) ∧
    (Valid db x → ∀ check, o.vrep = some check → check x = .ok true → g.rep.lookup [x] = none) ∧
    (Valid db x → o.vrep = none → g.rep.lookup [x] = none) ∧
    (Valid db x → o.override = false → ∀ check, o.vrep = some check → check x = .ok true)) := by
  cases hf : o.force with
  | true => cases h <;> simp [accepts]
  | false =>
    cases h with
    | fine h1 h2 h3 => simp only [accepts, h1, h3]; simp; intro _ c hc; exact h2 c hc
    | invalid h => simp [accepts, h]
    | outside c h1 h2 h3 =>
      cases ho : o.override with
      | true => simp [accepts, h1, h2, h3]
      | false => simp [accepts, h1, h2, h3]
    | present h1 h2 h3 =>
      simp only [accepts, Bool.false_eq_true, h1, true_or, true_and, false_iff, forall_const]
      rintro ⟨h4, h5, -⟩
      have : g.rep.lookup [x] = none := by
        cases hv : o.vrep with
        | none => exact h5 hv
        | some c => exact h4 c hv (h2 c hv)
      rw [this] at h3; simp at h3

/-- `add_range` is: checks, then the insertion of the selected code points, then the tag classes. -/
theorem addRange_cases (db : UniDb) (g : LGR) (f l : Nat) (o : Opts) :
    (∃ e, g.addRange db f l o = (g, .error e) ∧ ¬ ∃ cps, Passes db g f l o cps) ∨
    (∃ cps, Passes db g f l o cps ∧
      g.addRange db f l o =
        match insertList g.rep cps (mkAttrs o (knownRefs g o)) with
        | (r, .error e) => ({ g with rep := r }, .error e)
        | (r, .ok ()) =>
          ({ g with rep := r, tagCls := cps.foldl (fun t x => addToTags t [x] o.tag) g.tagCls },
            .ok ())) := by
  unfold LGR.addRange
  by_cases hfl : l < f
  · rw [if_pos hfl]
    exact Or.inl ⟨_, rfl, fun ⟨cps, h⟩ => absurd h.order (by omega)⟩
  rw [if_neg hfl]
  by_cases hctx : (¬ o.force = true ∧ o.whenR.isSome = true ∧ o.notWhenR.isSome = true)
  · rw [if_pos hctx]
    refine Or.inl ⟨_, rfl, fun ⟨cps, h⟩ => ?_⟩
    exact C50.not_both.2 (fun hf => (h.strict hf).1.1) hctx
  rw [if_neg hctx]
  have hctx' := C50.not_both.1 hctx
  cases hc : g.checkRange db f l o.vrep with
  | mk g1 res =>
    have hg1 : g1 = g := by
      have := C40.check_range_no_effect db o.vrep g f l
      rw [hc] at this; exact this
    subst hg1
    cases res with
    | error e =>
      refine Or.inl ⟨e, rfl, fun ⟨cps, h⟩ => ?_⟩
      obtain ⟨sts, hs⟩ := checkRange_ok_iff.2 ⟨h.order, h.vrep⟩
      rw [hc] at hs; simp at hs
    | ok sts =>
      simp only
      obtain ⟨c1, c2, c3, -⟩ := C40.check_range_classifies db o.vrep g1 f l sts (by rw [hc])
      have hvr := (checkRange_ok_iff.1 ⟨sts, by rw [hc]⟩ :
        f ≤ l ∧ ∀ x, f ≤ x → x ≤ l → C40.Valid db x → ∀ check, o.vrep = some check →
        ∃ b, check x = .ok b).2
      have hacc : (∀ p ∈ sts, accepts g1.raiseInvalid (o.override || o.force) o.force p.2 = true) ↔
          (o.force = false → ∀ x, f ≤ x → x ≤ l →
    (Valid db x ∨ g1.raiseInvalid = false) ∧
    (Valid db x → ∀ check, o.vrep = some check → check x = .ok true → g1.rep.lookup [x] = none) ∧
    (Valid db x → o.vrep = none → g1.rep.lookup [x] = none) ∧
    (Valid db x → o.override = false → ∀ check, o.vrep = some check → check x = .ok true)) := by
        constructor
        · intro h hf x hx1 hx2
          have : x ∈ sts.map Prod.fst := by rw [c2, List.mem_range'_1]; omega
          obtain ⟨p, hp, rfl⟩ := List.mem_map.1 this
          exact (accepts_iff (c3 p hp)).1 (h p hp) hf
        · intro h p hp
          have : p.1 ∈ sts.map Prod.fst := List.mem_map_of_mem hp
          rw [c2, List.mem_range'_1] at this
          exact (accepts_iff (c3 p hp)).2 fun hf => h hf p.1 (by omega) (by omega)
      cases hs : selectCps g1.raiseInvalid (o.override || o.force) o.force sts with
      | error e =>
        refine Or.inl ⟨e, rfl, fun ⟨cps, h⟩ => ?_⟩
        have := selectCps_ok.2 ⟨rfl, hacc.2 h.accept⟩
        rw [hs] at this; simp at this
      | ok cps =>
        obtain ⟨s1, s2⟩ := selectCps_ok.1 hs
        simp only
        cases ht : takeRefs g1.refs o [f] with
        | error e =>
          refine Or.inl ⟨e, rfl, fun ⟨cps, h⟩ => ?_⟩
          have := (C50.takeRefs_ok (g := g1) (o := o) (whole := [f])).2
            ⟨rfl, fun hf => (h.strict hf).1.2⟩
          rw [ht] at this; simp at this
        | ok refs =>
          obtain ⟨t1, t2⟩ := (C50.takeRefs_ok (g := g1)).1 ht
          simp only
          by_cases htag : ¬ o.tag.Nodup ∧ ¬ o.force = true
          · rw [if_pos htag]
            refine Or.inl ⟨_, rfl, fun ⟨cps, h⟩ => ?_⟩
            exact htag.1 (h.strict (by simpa using htag.2)).2
          · rw [if_neg htag]
            refine Or.inr ⟨cps, ?_, by
              rw [t1]
              cases insertList g1.rep cps (mkAttrs o (knownRefs g1 o)) with
              | mk r out => cases out <;> rfl⟩
            have hmem : ∀ x, x ∈ cps ↔ (f ≤ x ∧ x ≤ l) ∧ Selected db g1 o x := by
              intro x
              rw [s1, List.mem_map]
              constructor
              · rintro ⟨p, hp, rfl⟩
                rw [List.mem_filter] at hp
                have h1 : p.1 ∈ sts.map Prod.fst := List.mem_map_of_mem hp.1
                rw [c2, List.mem_range'_1] at h1
                exact ⟨by omega, (keeps_iff (c3 p hp.1)).1 hp.2⟩
              · rintro ⟨hx, hsel⟩
                have : x ∈ sts.map Prod.fst := by rw [c2, List.mem_range'_1]; omega
                obtain ⟨p, hp, rfl⟩ := List.mem_map.1 this
                exact ⟨p, List.mem_filter.2 ⟨hp, (keeps_iff (c3 p hp)).2 hsel⟩, rfl⟩
            refine ⟨c1, hmem, ?_, hvr, ?_, hacc.1 s2⟩
            · rw [s1]
              have : ((sts.filter (fun p => keeps g1.raiseInvalid p.2)).map Prod.fst).Sublist
                (sts.map Prod.fst) := List.Sublist.map _ List.filter_sublist
              exact List.Nodup.sublist this (by rw [c2]; exact List.nodup_range')
            · intro hf
              refine ⟨⟨hctx' hf, t2 hf⟩, ?_⟩
              by_contra hn
              exact htag ⟨hn, by simp [hf]⟩

theorem insertList_cases (a : Attrs) {r : Repertoire} (h : WF r) {cps : List Nat} (hn : cps.Nodup) :
    WF (insertList r cps a).1 ∧
    ((cps = [] ∧ insertList r cps a = (r, .error .indexError)) ∨
     (cps ≠ [] ∧ ∃ rs, C05.Separated rs ∧ (∀ x, C05.Covers rs x ↔ x ∈ cps) ∧
      ((insertList r cps a).2 = .ok () ↔ ∀ x ∈ cps, r.lookup [x] = none) ∧
      ((insertList r cps a).2 = .ok () →
        (∀ p ∈ rs, ∀ x, p.1 ≤ x → x ≤ p.2 →
          (insertList r cps a).1.lookup [x] = some (insChar a p x)) ∧
        (∀ k, (∀ x ∈ cps, k ≠ [x]) → (insertList r cps a).1.lookup k = r.lookup k) ∧
        (insertList r cps a).1.ranges = r.ranges ++ rs.filter (fun p => p.1 ≠ p.2)))) := by
  by_cases hc : cps = []
  · subst hc
    exact ⟨h, Or.inl ⟨rfl, rfl⟩⟩
  · obtain ⟨rs, h1, h2, h3⟩ := C05.collapse_exact cps hn hc
    have hi : insertList r cps a = insertRanges a r rs := by
      unfold insertList; rw [h1]
    rw [hi]
    obtain ⟨i1, i2, i3⟩ := insertRanges_spec a rs h2.1
      (h2.2.imp (fun {a b} (hab : a.2 + 1 < b.1) => (by omega : a.2 < b.1))) h
    refine ⟨i1, Or.inr ⟨hc, rs, h2, h3, ?_, ?_⟩⟩
    · rw [i2]; simp only [h3]
    · intro hok
      obtain ⟨i4, i5, i6⟩ := i3 hok
      exact ⟨i4, fun k hk => i5 k fun x hx => hk x ((h3 x).1 hx), i6⟩

theorem mem_foldTags {cps : List Nat} {cls : List (String × List Nat)} {tags : List String}
    {t : String} {x : Nat} :
    x ∈ (dget (cps.foldl (fun c y => addToTags c [y] tags) cls) t).getD [] ↔
      x ∈ (dget cls t).getD [] ∨ (t ∈ tags ∧ x ∈ cps) := by
  induction cps generalizing cls with
  | nil => simp
  | cons y cps ih =>
    rw [List.foldl_cons, ih, C50.mem_addToTags]
    simp only [List.mem_singleton, List.mem_cons]
    tauto

/-- **C04** What a successful `add_range` does, whatever the options: it adds exactly the code points
of the range that are absent and IDNA-valid (all absent ones if that check is off), with the given
attributes and the defined references, as single code points or as members of declared ranges made
of added code points; tag classes gain exactly them; every other entry stays as it was. Without
`force` every code point of the range was absent and is added. -/
theorem add_range_exact (db : UniDb) (g : LGR) (hwf : WF g.rep) (f l : Nat) (o : Opts)
    (h : (g.addRange db f l o).2 = .ok ()) :
    f ≤ l ∧ ∃ rs : List (Nat × Nat), C05.Separated rs ∧
      (∀ x, C05.Covers rs x ↔ f ≤ x ∧ x ≤ l ∧ g.rep.lookup [x] = none ∧
        (Valid db x ∨ g.raiseInvalid = false)) ∧
      (∀ p ∈ rs, ∀ x, p.1 ≤ x → x ≤ p.2 →
        (g.addRange db f l o).1.rep.lookup [x] = some
          { cp := [x], range := if p.1 = p.2 then none else some p,
            attrs := ⟨o.comment, knownRefs g o, o.tag, o.whenR, o.notWhenR⟩ }) ∧
      (∀ k, (∀ x, C05.Covers rs x → k ≠ [x]) →
        (g.addRange db f l o).1.rep.lookup k = g.rep.lookup k) ∧
      (g.addRange db f l o).1.rep.ranges = g.rep.ranges ++ rs.filter (fun p => p.1 ≠ p.2) ∧
      (∀ t x, x ∈ tagSet (g.addRange db f l o).1 t ↔
        x ∈ tagSet g t ∨ (t ∈ o.tag ∧ C05.Covers rs x)) ∧
      (g.addRange db f l o).1.refs = g.refs ∧ (g.addRange db f l o).1.types = g.types ∧
      (g.addRange db f l o).1.raiseInvalid = g.raiseInvalid ∧
      (o.force = false → rs = [(f, l)]) := by
  rcases addRange_cases db g f l o with ⟨e, he, _⟩ | ⟨cps, hp, he⟩
  · rw [he] at h; simp at h
  refine ⟨hp.order, ?_⟩
  obtain ⟨-, hi⟩ := insertList_cases (mkAttrs o (knownRefs g o)) hwf hp.nodup
  rcases hi with ⟨-, hi⟩ | ⟨hne, rs, hsep, hcov, hiff, hi⟩
  · rw [he, hi] at h; simp at h
  generalize hres : insertList g.rep cps (mkAttrs o (knownRefs g o)) = res at he hiff hi
  obtain ⟨r, out⟩ := res
  cases out with
  | error e => rw [he] at h; simp at h
  | ok u =>
    simp only [true_iff, forall_const] at hiff hi
    have hiff := hiff
    obtain ⟨i1, i2, i3⟩ := hi
    rw [he]
    have hcov' : ∀ x, C05.Covers rs x ↔ f ≤ x ∧ x ≤ l ∧ g.rep.lookup [x] = none ∧
        (Valid db x ∨ g.raiseInvalid = false) := by
      intro x
      rw [hcov]
      constructor
      · intro hx
        obtain ⟨h1, h2⟩ := (hp.mem x).1 hx
        refine ⟨h1.1, h1.2, hiff x hx, ?_⟩
        rcases h2 with h2 | h2
        · exact Or.inr h2.2
        · exact Or.inl h2.1
      · rintro ⟨h1, h2, h3, h4⟩
        refine (hp.mem x).2 ⟨⟨h1, h2⟩, ?_⟩
        by_cases hv : Valid db x
        · exact Or.inr ⟨hv, Or.inr h3⟩
        · exact Or.inl ⟨hv, h4.resolve_left hv⟩
    refine ⟨rs, hsep, hcov', ?_, ?_, i3, ?_, rfl, rfl, rfl, ?_⟩
    · intro p hpm x h1 h2
      show r.lookup [x] = _
      rw [i1 p hpm x h1 h2]
      unfold insChar mkAttrs
      by_cases hpe : p.1 = p.2
      · simp [hpe]
      · simp [hpe, rangeChar]
    · intro k hk
      exact i2 k fun x hx => hk x ((hcov x).2 hx)
    · intro t x
      rw [hcov]
      exact mem_foldTags
    · intro hf
      apply C05.cover_unique _ _ hsep
      · exact ⟨by simpa using hp.order, by simp⟩
      · intro x
        rw [hcov']
        constructor
        · rintro ⟨h1, h2, _⟩; exact ⟨(f, l), by simp, h1, h2⟩
        · rintro ⟨q, hq, h1, h2⟩
          rw [List.mem_singleton] at hq; subst hq
          simp only at h1 h2
          obtain ⟨a1, a2, a3, a4⟩ := hp.accept hf x h1 h2
          refine ⟨h1, h2, ?_, a1⟩
          have hsel : Selected db g o x := by
            unfold Selected
            by_cases hv : Valid db x
            · right; refine ⟨hv, ?_⟩
              cases hvr : o.vrep with
              | none => right; exact a3 hv hvr
              | some c =>
                obtain ⟨b, hb⟩ := hp.vrep x h1 h2 hv c hvr
                cases b with
                | true => right; exact a2 hv c hvr hb
                | false => left; exact ⟨c, rfl, hb⟩
            · left; exact ⟨hv, a1.resolve_left hv⟩
          exact hiff x ((hp.mem x).2 ⟨⟨h1, h2⟩, hsel⟩)

/-- **C04, partial** When `add_range` raises it leaves the LGR as it was, provided no code point of
the range clashes: is already in the LGR, yet IDNA-invalid with the check off, or outside the
validating repertoire (for which `override` or `force` is needed to get past the checks). Missing
for the full claim: the clash cases, see `add_range_not_atomic`. -/
theorem add_range_atomic_partial (db : UniDb) (g : LGR) (hwf : WF g.rep) (f l : Nat) (o : Opts)
    (hno : ∀ x, f ≤ x → x ≤ l → ¬ Clash db g o x) (e : Err)
    (h : (g.addRange db f l o).2 = .error e) : (g.addRange db f l o).1 = g := by
  rcases addRange_cases db g f l o with ⟨e', he, _⟩ | ⟨cps, hp, he⟩
  · rw [he]
  obtain ⟨-, hi⟩ := insertList_cases (mkAttrs o (knownRefs g o)) hwf hp.nodup
  rcases hi with ⟨-, hi⟩ | ⟨hne, rs, hsep, hcov, hiff, hi⟩
  · rw [he, hi]
  · have hok : (insertList g.rep cps (mkAttrs o (knownRefs g o))).2 = .ok () := by
      rw [hiff]
      intro x hx
      obtain ⟨h1, h2⟩ := (hp.mem x).1 hx
      by_contra hn
      apply hno x h1.1 h1.2
      refine ⟨Option.isSome_iff_ne_none.2 hn, ?_⟩
      rcases h2 with h2 | ⟨h2, h3 | h3⟩
      · exact Or.inl h2
      · exact Or.inr ⟨h2, h3⟩
      · exact absurd h3 hn
    generalize insertList g.rep cps (mkAttrs o (knownRefs g o)) = res at he hok
    obtain ⟨r, out⟩ := res
    simp only at hok; subst hok
    rw [he] at h; simp at h

/-- **C04** In particular, with strict IDNA checking and neither `override` nor `force`, or with
strict checking and no validating repertoire, `add_range` is all-or-nothing. -/
theorem add_range_atomic_strict (db : UniDb) (g : LGR) (hwf : WF g.rep) (f l : Nat) (o : Opts)
    (hr : g.raiseInvalid = true ∨ db = none)
    (ho : o.vrep = none ∨ (o.override = false ∧ o.force = false)) (e : Err)
    (h : (g.addRange db f l o).2 = .error e) : (g.addRange db f l o).1 = g := by
  have hvalid : ∀ x, ¬ Valid db x → g.raiseInvalid = true := by
    intro x hx
    rcases hr with hr | hr
    · exact hr
    · subst hr; exact absurd (by simp [Valid]) hx
  rcases ho with ho | ⟨ho, hf⟩
  · apply add_range_atomic_partial db g hwf f l o _ e h
    rintro x _ _ ⟨_, h2 | ⟨_, c, h3, _⟩⟩
    · rw [hvalid x h2.1] at h2; simp at h2
    · rw [ho] at h3; simp at h3
  · rcases addRange_cases db g f l o with ⟨e', he, _⟩ | ⟨cps, hp, he⟩
    · rw [he]
    · apply add_range_atomic_partial db g hwf f l o _ e h
      rintro x hx1 hx2 ⟨_, h2 | ⟨hv, c, h3, h4⟩⟩
      · rw [hvalid x h2.1] at h2; simp at h2
      · have := (hp.accept hf x hx1 hx2).2.2.2 hv ho c h3
        rw [h4] at this; simp at this

/-- **C04** `add_range` succeeds exactly when the checks pass. -/
theorem add_range_ok_iff (db : UniDb) (g : LGR) (hwf : WF g.rep) (f l : Nat) (o : Opts) :
    (g.addRange db f l o).2 = .ok () ↔ f ≤ l ∧
      (∀ x, f ≤ x → x ≤ l → Valid db x → ∀ check, o.vrep = some check → ∃ b, check x = .ok b) ∧
      (∀ x, f ≤ x → x ≤ l → ¬ Clash db g o x) ∧
      (if o.force then
        ∃ x, f ≤ x ∧ x ≤ l ∧ g.rep.lookup [x] = none ∧ (Valid db x ∨ g.raiseInvalid = false)
      else
        (Strict g o ∧ o.tag.Nodup) ∧ ∀ x, f ≤ x → x ≤ l → g.rep.lookup [x] = none ∧
          (Valid db x ∨ g.raiseInvalid = false) ∧
          (Valid db x → o.override = false → ∀ check, o.vrep = some check → check x = .ok true)) := by
  constructor
  · intro h
    obtain ⟨hfl, rs, hsep, hcov, _, _, _, _, _, _, _, hforce⟩ := add_range_exact db g hwf f l o h
    rcases addRange_cases db g f l o with ⟨e', he, _⟩ | ⟨cps, hp, he⟩
    · rw [he] at h; simp at h
    obtain ⟨-, hi⟩ := insertList_cases (mkAttrs o (knownRefs g o)) hwf hp.nodup
    rcases hi with ⟨-, hi⟩ | ⟨hne, rs', hsep', hcov', hiff, hi⟩
    · rw [he, hi] at h; simp at h
    have hok : (insertList g.rep cps (mkAttrs o (knownRefs g o))).2 = .ok () := by
      generalize insertList g.rep cps (mkAttrs o (knownRefs g o)) = res at he
      obtain ⟨r, out⟩ := res
      cases out with
      | error e => rw [he] at h; simp at h
      | ok u => rfl
    have habs := hiff.1 hok
    refine ⟨hfl, hp.vrep, ?_, ?_⟩
    · rintro x h1 h2 ⟨h3, h4⟩
      have : x ∈ cps := by
        refine (hp.mem x).2 ⟨⟨h1, h2⟩, ?_⟩
        rcases h4 with h4 | h4
        · exact Or.inl h4
        · exact Or.inr ⟨h4.1, Or.inl h4.2⟩
      rw [habs x this] at h3; simp at h3
    · cases hf : o.force with
      | true =>
        simp only [if_true]
        obtain ⟨x, hx⟩ := List.exists_mem_of_ne_nil _ hne
        obtain ⟨h1, h2⟩ := (hp.mem x).1 hx
        refine ⟨x, h1.1, h1.2, habs x hx, ?_⟩
        rcases h2 with h2 | h2
        · exact Or.inr h2.2
        · exact Or.inl h2.1
      | false =>
        simp only [Bool.false_eq_true, if_false]
        refine ⟨hp.strict hf, ?_⟩
        intro x h1 h2
        have hc : C05.Covers rs x := by rw [hforce hf]; exact ⟨(f, l), by simp, h1, h2⟩
        have := (hcov x).1 hc
        exact ⟨this.2.2.1, this.2.2.2, (hp.accept hf x h1 h2).2.2.2⟩
  · rintro ⟨hfl, hv, hno, hif⟩
    by_contra hne
    cases hres : (g.addRange db f l o).2 with
    | ok u => exact hne hres
    | error e =>
      have hpass : ∃ cps, Passes db g f l o cps := by
        classical
        refine ⟨(cpRange f l).filter (fun x => decide (Selected db g o x)), hfl, ?_,
          (cpRange_nodup f l).filter _, hv, ?_, ?_⟩
        · intro x; rw [List.mem_filter, mem_cpRange]; simp
        · intro hf; rw [hf] at hif; simp at hif; exact hif.1
        · intro hf x h1 h2
          rw [hf] at hif
          simp only [Bool.false_eq_true, if_false] at hif
          obtain ⟨a, b, c⟩ := hif.2 x h1 h2
          exact ⟨b, fun _ _ _ _ => a, fun _ _ => a, c⟩
      rcases addRange_cases db g f l o with ⟨e', he, hnp⟩ | ⟨cps, hp, he⟩
      · exact hnp hpass
      · obtain ⟨-, hi⟩ := insertList_cases (mkAttrs o (knownRefs g o)) hwf hp.nodup
        rcases hi with ⟨hnil, hi⟩ | ⟨hne, rs', hsep', hcov', hiff, hi⟩
        · have hex : ∃ x, f ≤ x ∧ x ≤ l ∧ g.rep.lookup [x] = none ∧
              (Valid db x ∨ g.raiseInvalid = false) := by
            cases hf : o.force with
            | true => rw [hf] at hif; simpa using hif
            | false =>
              rw [hf] at hif
              simp only [Bool.false_eq_true, if_false] at hif
              obtain ⟨a, b, _⟩ := hif.2 f (le_refl _) hfl
              exact ⟨f, le_refl _, hfl, a, b⟩
          obtain ⟨x, h1, h2, h3, h4⟩ := hex
          have : x ∈ cps := by
            refine (hp.mem x).2 ⟨⟨h1, h2⟩, ?_⟩
            by_cases hv : Valid db x
            · exact Or.inr ⟨hv, Or.inr h3⟩
            · exact Or.inl ⟨hv, h4.resolve_left hv⟩
          rw [hnil] at this; simp at this
        · have hok := hiff.2 (by
            intro x hx
            obtain ⟨h1, h2⟩ := (hp.mem x).1 hx
            by_contra hn
            apply hno x h1.1 h1.2
            refine ⟨Option.isSome_iff_ne_none.2 hn, ?_⟩
            rcases h2 with h2 | ⟨h2, h3 | h3⟩
            · exact Or.inl h2
            · exact Or.inr ⟨h2, h3⟩
            · exact absurd h3 hn)
          generalize insertList g.rep cps (mkAttrs o (knownRefs g o)) = res at he hok
          obtain ⟨r, out⟩ := res
          simp only at hok; subst hok
          rw [he] at hres; simp at hres

/-- **C04 fails as stated for `LGR.add_range`**: with `override`, an existing code point outside the
validating repertoire is reported as outside only, gets selected, and the insertion raises after
the code points before it were inserted. -/
theorem add_range_not_atomic :
    ∃ (g : LGR) (o : Opts) (e : Err), WF g.rep ∧
      (g.addRange none 97 99 o).2 = .error e ∧ g.rep.lookup [97] = none ∧
      ((g.addRange none 97 99 o).1.rep.lookup [97]).isSome := by
  refine ⟨(LGR.addCp none {} (.int 98) {}).1, { vrep := some (fun _ => .ok false), override := true },
    .charAlreadyExists [98], ?_, by rfl, by rfl, by rfl⟩
  obtain ⟨r, hr⟩ : ∃ r, ({} : Repertoire).addCharObj { cp := [98] } = .ok r := ⟨_, rfl⟩
  have := addCharObj_wf wf_empty (single_wf [98] {}) hr
  have he : (LGR.addCp none {} (.int 98) {}).1.rep = r := by
    have : (Except.ok (LGR.addCp none {} (.int 98) {}).1.rep : Except Err Repertoire) = .ok r := by
      rw [← hr]; rfl
    injection this
  rw [he]; exact this

/-! Non-vacuity: an accepted forced range with a gap, a refused one. -/
example : ((LGR.addCp none {} (.int 98) {}).1.addRange none 97 100 { force := true }).2 = .ok () := by
  rfl
example : ((LGR.addCp none {} (.int 98) {}).1.addRange none 97 100 { force := true }).1.rep.ranges =
    [(99, 100)] := by rfl
example : ((LGR.addCp none {} (.int 98) {}).1.addRange none 97 100 {}).2 =
    .error (.charAlreadyExists [98]) := by rfl

end C04
end Lgr.Props

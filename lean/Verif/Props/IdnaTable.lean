import Verif.IdnaTable
import Verif.Props.DocXml
import Verif.Props.ClassXml

/-!
# C126: the repertoire made from the registry of IDNA properties
-/

namespace Lgr.Props.C126
open Lgr Text Repertoire LGR DocXml IdnaTable C50 C04 C34

/-! ## The registry -/

/-- What a text of a `codepoint` element names: `hex`, or `hex-hex` for the first and the last. -/
inductive Names : List Char → Nat → Nat → Prop where
  | one {s : List Char} {x : Nat} (h : C102.Hex s x) : Names s x x
  | two {a b : List Char} {f l : Nat} (ha : C102.Hex a f) (hb : C102.Hex b l) : Names (a ++ '-' :: b) f l

/-- The property of a code point which labels may contain, perhaps in some contexts only (RFC 5892). -/
def Usable (p : String) : Prop := p = "PVALID" ∨ p = "CONTEXTJ" ∨ p = "CONTEXTO"

/-- The usable code points of records: from the first to the last, in the order of the records. -/
inductive Spans : List Record → List (Nat × Nat) → Prop where
  | nil : Spans [] []
  | skip {t : Option (List Char)} {p : Option String} {rs ps} (hp : ∀ q, p = some q → ¬ Usable q) (h : Spans rs ps) :
      Spans (⟨some t, some p⟩ :: rs) ps
  | keep {s : List Char} {p : String} {f l : Nat} {rs ps} (hp : Usable p) (hs : Names s f l) (h : Spans rs ps) :
      Spans (⟨some (some s), some (some p)⟩ :: rs) ((f, l) :: ps)

/-- Not upside down, and no code point twice. -/
def Proper (ps : List (Nat × Nat)) : Prop :=
  (∀ p ∈ ps, p.1 ≤ p.2) ∧ ps.Pairwise (fun a b => a.2 < b.1 ∨ b.2 < a.1)

/-- The records of the registries with an identifier, in order. -/
def registered (id : String) : List Registry → List Record
  | [] => []
  | r :: rs => if r.id = some id then r.records ++ registered id rs else registered id rs

/-- The identifier of the registry of a version, up to 6.0.0 and after. -/
def IdOf (pyInt : List Char → Option Int) (version : String) (id : String) : Prop :=
  ∃ ns, (splitOn '.' version.toList).mapM pyInt = some ns ∧
    (((ns < [6, 0, 0] ∨ ns = [6, 0, 0]) ∧ id = "idna-tables-" ++ version ++ "-properties") ∨
      ([6, 0, 0] < ns ∧ id = "idna-tables-properties"))

/-! ## Texts -/

theorem hex_notdashed {s : List Char} {x : Nat} (h : C102.Hex s x) : dashed s = false := by
  have hd := C102.hex_nodash h
  cases s with
  | nil => rfl
  | cons c s =>
    have : '-' ∉ s := fun hm => hd (List.mem_cons_of_mem _ hm)
    simp [dashed, this]

theorem two_dashed {a b : List Char} {x : Nat} (h : C102.Hex a x) : dashed (a ++ '-' :: b) = true := by
  have hd := C102.hex_nodash h
  cases a with
  | nil => exact absurd rfl h.1
  | cons c a =>
    have : c ≠ '-' := fun e => hd (by rw [e]; exact List.mem_cons_self)
    simp [dashed, this]

theorem names_unique {s : List Char} {f l f' l' : Nat} (h : Names s f l) (h' : Names s f' l') : f = f' ∧ l = l' := by
  have key : ∀ {a b c d : List Char}, '-' ∉ a → '-' ∉ b → '-' ∉ c → '-' ∉ d → a ++ '-' :: b = c ++ '-' :: d →
      a = c ∧ b = d := by
    intro a b c d ha hb hc hd e
    have h1 := C102.split_dash ha hb
    rw [e, C102.split_dash hc hd] at h1
    simp only [List.cons.injEq, and_true] at h1
    exact ⟨h1.1.symm, h1.2.symm⟩
  have num : ∀ {s : List Char} {x y : Nat}, C102.Hex s x → C102.Hex s y → x = y := fun h1 h2 =>
    Option.some.inj ((C102.hex_iff.2 h1).symm.trans (C102.hex_iff.2 h2))
  generalize hs : s = t at h'
  cases h with
  | one h1 =>
    cases h' with
    | one h2 => subst hs; exact ⟨num h1 h2, num h1 h2⟩
    | two ha hb => exact absurd (by rw [hs]; simp) (C102.hex_nodash h1)
  | two ha hb =>
    cases h' with
    | one h2 => exact absurd (by rw [← hs]; simp) (C102.hex_nodash h2)
    | two hc hd =>
      obtain ⟨rfl, rfl⟩ := key (C102.hex_nodash ha) (C102.hex_nodash hb) (C102.hex_nodash hc) (C102.hex_nodash hd) hs
      exact ⟨num ha hc, num hb hd⟩

theorem kept_iff {p : String} : p ∈ keptProps ↔ Usable p := by
  unfold keptProps Usable
  simp only [List.mem_cons, List.not_mem_nil, or_false]
  tauto

/-! ## The entries made -/

/-- The entry of a code point of a span. -/
def entry (p : Nat × Nat) (x : Nat) : CharObj :=
  { cp := [x], range := if p.1 = p.2 then none else some p, attrs := {} }

/-- The LGR after some records. -/
structure Made (g : LGR) (ps : List (Nat × Nat)) : Prop where
  wf : WF g.rep
  refs : g.refs = {}
  mem : ∀ p ∈ ps, ∀ x, p.1 ≤ x → x ≤ p.2 → g.rep.lookup [x] = some (entry p x)
  only : ∀ k c, g.rep.lookup k = some c → ∃ p ∈ ps, ∃ x, p.1 ≤ x ∧ x ≤ p.2 ∧ k = [x]
  ranges : g.rep.ranges = ps.filter (fun p => p.1 ≠ p.2)

/-- The context of a call which does not matter here. -/
def ctx0 : Ctx := { db := none, valid := fun _ => true, pyInt := fun _ => none }

theorem step_range (g : LGR) (h : WF g.rep) (hr : g.refs = {}) (f l : Nat) : WF (g.addRange none f l {}).1.rep :=
  step_wf ctx0 g (.addRange f l {}) h (by rw [hr]; exact List.nodup_nil)

theorem step_cp (g : LGR) (h : WF g.rep) (hr : g.refs = {}) (a : CpArg) : WF (g.addCp none a {}).1.rep :=
  step_wf ctx0 g (.addCp a {}) h (by rw [hr]; exact List.nodup_nil)

/-- A new span is clear of the others. -/
def Clear (ps : List (Nat × Nat)) (f l : Nat) : Prop := ∀ p ∈ ps, l < p.1 ∨ p.2 < f

theorem absent_iff {g : LGR} {ps : List (Nat × Nat)} (h : Made g ps) (hp : ∀ p ∈ ps, p.1 ≤ p.2) {f l : Nat}
    (hfl : f ≤ l) : (∀ x, f ≤ x → x ≤ l → g.rep.lookup [x] = none) ↔ Clear ps f l := by
  constructor
  · intro ha p hm
    by_contra hc
    have h1 := h.mem p hm (max f p.1) (by omega) (by have := hp p hm; omega)
    rw [ha (max f p.1) (by omega) (by omega)] at h1
    cases h1
  · intro hc x h1 h2
    cases hl : g.rep.lookup [x] with
    | none => rfl
    | some c =>
      obtain ⟨p, hm, y, h3, h4, e⟩ := h.only _ c hl
      cases e
      rcases hc p hm with hc | hc <;> omega

theorem made_add {g g' : LGR} {ps : List (Nat × Nat)} (h : Made g ps) {f l : Nat} (hc : Clear ps f l)
    (hw : WF g'.rep) (hr : g'.refs = g.refs)
    (hin : ∀ x, f ≤ x → x ≤ l → g'.rep.lookup [x] = some (entry (f, l) x))
    (hout : ∀ k, (∀ x, f ≤ x → x ≤ l → k ≠ [x]) → g'.rep.lookup k = g.rep.lookup k)
    (hrg : g'.rep.ranges = g.rep.ranges ++ [(f, l)].filter (fun p => p.1 ≠ p.2)) : Made g' (ps ++ [(f, l)]) := by
  refine ⟨hw, hr.trans h.refs, ?_, ?_, ?_⟩
  · intro p hm x h1 h2
    rcases List.mem_append.1 hm with hm | hm
    · rw [hout, h.mem p hm x h1 h2]
      intro y h3 h4 e
      cases e
      rcases hc p hm with hc | hc <;> omega
    · cases List.mem_singleton.1 hm
      exact hin x h1 h2
  · intro k c hk
    by_cases hx : ∃ x, f ≤ x ∧ x ≤ l ∧ k = [x]
    · obtain ⟨x, h1, h2, e⟩ := hx
      exact ⟨(f, l), by simp, x, h1, h2, e⟩
    · rw [hout k (fun x h1 h2 e => hx ⟨x, h1, h2, e⟩)] at hk
      obtain ⟨p, hm, hp⟩ := h.only k c hk
      exact ⟨p, List.mem_append_left _ hm, hp⟩
  · rw [hrg, h.ranges, List.filter_append]

theorem range_step {g : LGR} {ps : List (Nat × Nat)} (h : Made g ps) (hp : ∀ p ∈ ps, p.1 ≤ p.2) (f l : Nat) :
    ((g.addRange none f l {}).2 = .ok () ↔ f ≤ l ∧ Clear ps f l) ∧
      ((g.addRange none f l {}).2 = .ok () → Made (g.addRange none f l {}).1 (ps ++ [(f, l)])) := by
  have hiff : (g.addRange none f l {}).2 = .ok () ↔ f ≤ l ∧ Clear ps f l := by
    rw [add_range_ok_iff none g h.wf f l {}]
    constructor
    · rintro ⟨h1, -, -, h4⟩
      simp only [Bool.false_eq_true, if_false] at h4
      exact ⟨h1, (absent_iff h hp h1).1 fun x a b => (h4.2 x a b).1⟩
    · rintro ⟨h1, h2⟩
      have ha := (absent_iff h hp h1).2 h2
      refine ⟨h1, by simp, ?_, ?_⟩
      · rintro x a b ⟨c, -⟩
        rw [ha x a b] at c; cases c
      · simp only [Bool.false_eq_true, if_false]
        exact ⟨⟨⟨.inl rfl, by simp [RefsOk]⟩, List.nodup_nil⟩,
          fun x a b => ⟨ha x a b, .inl (by simp [C40.Valid]), by simp⟩⟩
  refine ⟨hiff, fun ho => ?_⟩
  obtain ⟨h1, rs, -, hcov, hin, hout, hrg, -, hrefs, -, -, hrs⟩ := add_range_exact none g h.wf f l {} ho
  obtain rfl := hrs rfl
  have hk : knownRefs g {} = [] := by simp [knownRefs]
  refine made_add h (hiff.1 ho).2 (step_range g h.wf h.refs f l) hrefs ?_ ?_ ?_
  · intro x a b
    rw [hin (f, l) (by simp) x a b, hk]
    rfl
  · intro k hk
    exact hout k fun x hx => by
      obtain ⟨p, hm, a, b⟩ := hx
      cases List.mem_singleton.1 hm
      exact hk x a b
  · rw [hrg]

theorem cp_step {g : LGR} {ps : List (Nat × Nat)} (h : Made g ps) (hp : ∀ p ∈ ps, p.1 ≤ p.2) (x : Nat) :
    ((g.addCp none (.int x) {}).2 = .ok () ↔ Clear ps x x) ∧
      ((g.addCp none (.int x) {}).2 = .ok () → Made (g.addCp none (.int x) {}).1 (ps ++ [(x, x)])) := by
  have hiff : (g.addCp none (.int x) {}).2 = .ok () ↔ Clear ps x x := by
    rw [add_cp_ok_iff, ← absent_iff h hp (Nat.le_refl x)]
    constructor
    · rintro ⟨s, hd, -, -, hl, -⟩ y a b
      cases hd
      obtain rfl : y = x := by omega
      exact hl
    · intro ha
      exact ⟨[x], .int x, by simp [IdnaOk], by simp [VRepOk], ha x (Nat.le_refl x) (Nat.le_refl x),
        fun _ => ⟨⟨.inl rfl, by simp [RefsOk]⟩, List.nodup_nil, .inl rfl⟩⟩
  refine ⟨hiff, fun ho => ?_⟩
  obtain ⟨s, hd, -, hl, hrg, -, hrefs, -⟩ := add_cp_effect none g (.int x) {} ho
  cases hd
  have hk : knownRefs g {} = [] := by simp [knownRefs]
  refine made_add h (hiff.1 ho) (step_cp g h.wf h.refs _) hrefs ?_ ?_ ?_
  · intro y a b
    obtain rfl : y = x := by omega
    rw [hl, if_pos rfl, hk]
    simp [entry]
  · intro k hk
    rw [hl, if_neg (hk x (Nat.le_refl x) (Nat.le_refl x))]
  · rw [hrg]; simp

theorem text_names {g : LGR} {s : List Char} {f l : Nat} (h : Names s f l) :
    addText g s = g.addRange none f l {} ∨ (f = l ∧ addText g s = g.addCp none (.int f) {}) := by
  cases h with
  | one h =>
    right
    refine ⟨rfl, ?_⟩
    unfold addText
    rw [hex_notdashed h, C102.hex_iff.2 h]
    rfl
  | two ha hb =>
    left
    unfold addText
    rw [two_dashed ha, C102.split_dash (C102.hex_nodash ha) (C102.hex_nodash hb)]
    simp [C102.hex_iff.2 ha, C102.hex_iff.2 hb]

theorem text_step {g : LGR} {ps : List (Nat × Nat)} (h : Made g ps) (hp : ∀ p ∈ ps, p.1 ≤ p.2) {s : List Char}
    {f l : Nat} (hn : Names s f l) :
    ((addText g s).2 = .ok () ↔ f ≤ l ∧ Clear ps f l) ∧
      ((addText g s).2 = .ok () → Made (addText g s).1 (ps ++ [(f, l)])) := by
  rcases text_names (g := g) hn with e | ⟨rfl, e⟩
  · rw [e]; exact range_step h hp f l
  · rw [e]
    obtain ⟨h1, h2⟩ := cp_step h hp f
    exact ⟨h1.trans ⟨fun h => ⟨Nat.le_refl _, h⟩, fun h => h.2⟩, h2⟩

theorem mapM_len {α β : Type} {f : α → Option β} : ∀ {l : List α} {m : List β}, l.mapM f = some m → m.length = l.length
  | [], m, h => by
    simp only [List.mapM_nil] at h
    cases h; rfl
  | a :: l, m, h => by
    rw [List.mapM_cons] at h
    cases ha : f a with
    | none => rw [ha] at h; cases h
    | some b =>
      cases hl : l.mapM f with
      | none => rw [ha, hl] at h; cases h
      | some n =>
        rw [ha, hl] at h
        cases h
        simp [mapM_len hl]

theorem text_fails {g : LGR} {s : List Char} (h : ¬ ∃ f l, Names s f l) : addText g s = (g, .error .valueError) := by
  unfold addText
  split
  · split
    · rename_i hd f l hm
      exfalso
      apply h
      have hj := C102.go_pieces '-' s []
      change join '-' (splitOn '-' s) = s at hj
      have hlen : (splitOn '-' s).length = 2 := by
        have := mapM_len hm
        simpa using this.symm
      obtain ⟨a, b, e⟩ := List.length_eq_two.1 hlen
      rw [e] at hm hj
      simp only [List.mapM_cons, List.mapM_nil] at hm
      cases ha : parseHex a with
      | none => rw [ha] at hm; cases hm
      | some x =>
        cases hb : parseHex b with
        | none => rw [ha, hb] at hm; cases hm
        | some y =>
          simp only [join] at hj
          rw [← hj]
          exact ⟨x, y, .two (C102.hex_iff.1 ha) (C102.hex_iff.1 hb)⟩
    · rfl
  · split
    · rename_i x hx
      exact absurd ⟨x, x, .one (C102.hex_iff.1 hx)⟩ h
    · rfl

/-! ## The records -/

theorem record_skip {g : LGR} {t : Option (List Char)} {p : Option String} (hp : ∀ q, p = some q → ¬ Usable q) :
    addRecord g ⟨some t, some p⟩ = (g, .ok ()) := by
  unfold addRecord
  cases p with
  | none => rfl
  | some q =>
    simp only
    rw [if_pos (fun h => hp q rfl (kept_iff.1 h))]

theorem record_keep {g : LGR} {t : Option (List Char)} {p : String} (hp : Usable p) :
    addRecord g ⟨some t, some (some p)⟩ = match t with
      | none => (g, .error .attributeError)
      | some s => addText g s := by
  unfold addRecord
  simp only
  rw [if_neg (not_not_intro (kept_iff.2 hp))]
  cases t <;> rfl

theorem clear_cons {ps : List (Nat × Nat)} {p : Nat × Nat} {f l : Nat} :
    Clear (ps ++ [p]) f l ↔ Clear ps f l ∧ (l < p.1 ∨ p.2 < f) := by
  unfold Clear
  constructor
  · intro h
    exact ⟨fun q hq => h q (List.mem_append_left _ hq), h p (by simp)⟩
  · rintro ⟨h1, h2⟩ q hq
    rcases List.mem_append.1 hq with hq | hq
    · exact h1 q hq
    · cases List.mem_singleton.1 hq; exact h2

/-- The loop succeeds exactly on proper spans clear of those already there. -/
theorem loop_spec (rs : List Record) : ∀ {g : LGR} {ps : List (Nat × Nat)}, Made g ps → (∀ p ∈ ps, p.1 ≤ p.2) →
    (((forEach addRecord g rs).2 = .ok () ↔ ∃ qs, Spans rs qs ∧ Proper qs ∧ ∀ q ∈ qs, Clear ps q.1 q.2) ∧
      ∀ qs, Spans rs qs → (forEach addRecord g rs).2 = .ok () → Made (forEach addRecord g rs).1 (ps ++ qs)) := by
  induction rs with
  | nil =>
    intro g ps h hp
    refine ⟨⟨fun _ => ⟨[], .nil, ⟨by simp, .nil⟩, by simp⟩, fun _ => rfl⟩, ?_⟩
    intro qs hq _
    cases hq
    simpa [forEach] using h
  | cons r rs ih =>
    intro g ps h hp
    have bad : ∀ e, addRecord g r = (g, .error e) → (¬ ∃ qs, Spans (r :: rs) qs) →
        (((forEach addRecord g (r :: rs)).2 = .ok () ↔
          ∃ qs, Spans (r :: rs) qs ∧ Proper qs ∧ ∀ q ∈ qs, Clear ps q.1 q.2) ∧
        ∀ qs, Spans (r :: rs) qs → (forEach addRecord g (r :: rs)).2 = .ok () →
          Made (forEach addRecord g (r :: rs)).1 (ps ++ qs)) := by
      intro e he hn
      refine ⟨⟨?_, fun ⟨qs, hq, _⟩ => absurd ⟨qs, hq⟩ hn⟩, fun qs hq => absurd ⟨qs, hq⟩ hn⟩
      rw [forEach, he]
      intro hh; cases hh
    obtain ⟨cp, pr⟩ := r
    cases cp with
    | none => exact bad _ rfl (by rintro ⟨qs, hq⟩; cases hq)
    | some t =>
      cases pr with
      | none => exact bad _ rfl (by rintro ⟨qs, hq⟩; cases hq)
      | some p =>
        by_cases hu : ∃ q, p = some q ∧ Usable q
        · obtain ⟨q, rfl, hu⟩ := hu
          cases t with
          | none =>
            refine bad _ (record_keep hu) ?_
            rintro ⟨qs, hq⟩
            cases hq with
            | skip hp' _ => exact hp' q rfl hu
          | some s =>
            have hk : addRecord g ⟨some (some s), some (some q)⟩ = addText g s := record_keep hu
            by_cases hn : ∃ f l, Names s f l
            · obtain ⟨f, l, hn⟩ := hn
              obtain ⟨t1, t2⟩ := text_step h hp hn
              have inv : ∀ {qs}, Spans (⟨some (some s), some (some q)⟩ :: rs) qs →
                  ∃ qs', qs = (f, l) :: qs' ∧ Spans rs qs' := by
                intro qs hq
                cases hq with
                | skip hp' _ => exact absurd hu (hp' q rfl)
                | keep _ hn' h' =>
                  obtain ⟨rfl, rfl⟩ := names_unique hn hn'
                  exact ⟨_, rfl, h'⟩
              rw [forEach, hk]
              cases ha : addText g s with
              | mk g' o =>
                rw [ha] at t1 t2
                cases o with
                | error e =>
                  refine ⟨⟨fun hh => (by cases hh), ?_⟩, fun _ _ hh => (by cases hh)⟩
                  rintro ⟨qs, hq, hpr, hcl⟩
                  obtain ⟨qs', rfl, -⟩ := inv hq
                  exact absurd (t1.2 ⟨hpr.1 (f, l) (by simp), hcl (f, l) (by simp)⟩) (by simp)
                | ok u =>
                  obtain ⟨hfl, hc⟩ := t1.1 rfl
                  have hm := t2 rfl
                  have hp' : ∀ p ∈ ps ++ [(f, l)], p.1 ≤ p.2 := by
                    intro p hm
                    rcases List.mem_append.1 hm with hm | hm
                    · exact hp p hm
                    · cases List.mem_singleton.1 hm; exact hfl
                  obtain ⟨i1, i2⟩ := ih hm hp'
                  refine ⟨i1.trans ⟨?_, ?_⟩, ?_⟩
                  · rintro ⟨qs, hs, ⟨hp1, hp2⟩, hcl⟩
                    refine ⟨(f, l) :: qs, .keep hu hn hs, ⟨?_, ?_⟩, ?_⟩
                    · intro p hm
                      rcases List.mem_cons.1 hm with rfl | hm
                      · exact hfl
                      · exact hp1 p hm
                    · refine List.pairwise_cons.2 ⟨fun p hm => ?_, hp2⟩
                      have := (clear_cons.1 (hcl p hm)).2
                      simp only at this ⊢
                      tauto
                    · intro p hm
                      rcases List.mem_cons.1 hm with rfl | hm
                      · exact hc
                      · exact (clear_cons.1 (hcl p hm)).1
                  · rintro ⟨qs, hs, ⟨hp1, hp2⟩, hcl⟩
                    obtain ⟨qs', rfl, hs'⟩ := inv hs
                    rw [List.pairwise_cons] at hp2
                    refine ⟨qs', hs', ⟨fun p hm => hp1 p (List.mem_cons_of_mem _ hm), hp2.2⟩, fun p hm => ?_⟩
                    refine clear_cons.2 ⟨hcl p (List.mem_cons_of_mem _ hm), ?_⟩
                    have := hp2.1 p hm
                    simp only at this ⊢
                    tauto
                  · intro qs hs ho
                    obtain ⟨qs', rfl, hs'⟩ := inv hs
                    have := i2 qs' hs' ho
                    simpa using this
            · refine bad _ (hk.trans (text_fails hn)) ?_
              rintro ⟨qs, hq⟩
              cases hq with
              | skip hp' _ => exact hp' q rfl hu
              | keep _ hn' _ => exact hn ⟨_, _, hn'⟩
        · have hs : ∀ q, p = some q → ¬ Usable q := fun q hq hu' => hu ⟨q, hq, hu'⟩
          have inv : ∀ {qs}, Spans (⟨some t, some p⟩ :: rs) qs ↔ Spans rs qs := by
            intro qs
            constructor
            · intro hq
              cases hq with
              | skip _ h' => exact h'
              | keep hu' _ _ => exact absurd hu' (hs _ rfl)
            · exact fun hq => .skip hs hq
          rw [forEach, record_skip hs]
          simp only [inv]
          exact ih h hp

theorem made_empty : Made {} [] :=
  ⟨wf_empty, rfl, by simp, fun k c h => (by cases k <;> cases h), rfl⟩

theorem lexLe_true {v w : List Int} : lexLe v w = true ↔ v < w ∨ v = w := by
  induction v generalizing w with
  | nil =>
    cases w with
    | nil => simp [lexLe]
    | cons b w => simp [lexLe]
  | cons a v ih =>
    cases w with
    | nil => simp [lexLe]
    | cons b w =>
      simp only [lexLe, Bool.or_eq_true, Bool.and_eq_true, decide_eq_true_eq, ih, List.cons_lt_cons_iff, List.cons.injEq]
      tauto

theorem lexLe_false {v w : List Int} : lexLe v w = false ↔ w < v := by
  induction v generalizing w with
  | nil =>
    cases w with
    | nil => simp [lexLe]
    | cons b w => simp [lexLe]
  | cons a v ih =>
    cases w with
    | nil => simp [lexLe]
    | cons b w =>
      simp only [lexLe, Bool.or_eq_false_iff, Bool.and_eq_false_iff, decide_eq_false_iff_not, ih, List.cons_lt_cons_iff]
      constructor
      · rintro ⟨h1, h2⟩
        rcases h2 with h2 | h2
        · left; omega
        · by_cases e : a = b
          · exact .inr ⟨e.symm, h2⟩
          · left; omega
      · rintro (h | ⟨rfl, h⟩)
        · exact ⟨by omega, .inl (by omega)⟩
        · exact ⟨by omega, .inr h⟩

theorem id_iff {pyInt : List Char → Option Int} {version id : String} :
    registryId pyInt version = some id ↔ IdOf pyInt version id := by
  unfold registryId IdOf
  cases (splitOn '.' version.toList).mapM pyInt with
  | none => simp
  | some ns =>
    simp only [Option.some.injEq, exists_eq_left']
    cases h : lexLe ns [6, 0, 0] with
    | true =>
      have h1 := lexLe_true.1 h
      have h2 : ¬ [6, 0, 0] < ns := fun h' => by rw [lexLe_false.2 h'] at h; cases h
      simp only [if_true, h1, h2, true_and, false_and, or_false]
      exact eq_comm
    | false =>
      have h1 := lexLe_false.1 h
      have h2 : ¬ (ns < [6, 0, 0] ∨ ns = [6, 0, 0]) := fun h' => by rw [lexLe_true.2 h'] at h; cases h
      simp only [Bool.false_eq_true, if_false, h1, h2, true_and, false_and, false_or]
      exact eq_comm

theorem records_eq (regs : List Registry) (id : String) : recordsOf regs id = registered id regs := by
  unfold recordsOf
  induction regs with
  | nil => rfl
  | cons r rs ih =>
    unfold registered
    by_cases h : r.id = some id
    · rw [List.filter_cons_of_pos (by simpa using h), List.flatMap_cons, ih, if_pos h]
    · rw [List.filter_cons_of_neg (by simpa using h), ih, if_neg h]

/-! ## Reading the document -/

theorem made_intact {g : LGR} {ps : List (Nat × Nat)} (h : Made g ps) (hp : Proper ps) : Intact g.rep := by
  refine ⟨?_, ?_, ?_⟩
  · intro f l hm
    rw [h.ranges, List.mem_filter] at hm
    have hne : f ≠ l := by simpa using hm.2
    refine ⟨by have := hp.1 _ hm.1; simp only at this; omega, {}, fun x h1 h2 => ?_⟩
    rw [h.mem _ hm.1 x h1 h2, entry, if_neg hne]
  · intro k c p hk hr
    obtain ⟨q, hq, x, h1, h2, rfl⟩ := h.only k c hk
    rw [h.mem q hq x h1 h2] at hk
    cases hk
    unfold entry at hr
    simp only at hr
    split at hr
    · cases hr
    · rename_i hne
      cases hr
      rw [h.ranges, List.mem_filter]
      exact ⟨hq, by simpa using hne⟩
  · rw [h.ranges]
    apply List.Nodup.filter
    have := hp.2
    refine List.Pairwise.imp_of_mem (fun {a b} ha hb hab e => ?_) this
    subst e
    have := hp.1 a ha
    omega

theorem entry_readable {db : UniDb} {strict force : Bool} {m : RefManager} {p : Nat × Nat} {x : Nat}
    (h : strict = true → ∀ valid, db = some valid → valid x = true) : Readable db strict force m (entry p x) := by
  refine ⟨?_, by simp [entry], by simp [entry, Words], by simp [entry, Words], ?_, ?_, ?_⟩
  · intro hs valid hv y hy
    cases List.mem_singleton.1 hy
    exact h hs valid hv
  · intro s hs
    simp [texts, entry, CharObj.getVariants] at hs
  · intro _
    exact ⟨.inl rfl, List.nodup_nil, List.nodup_nil, .inl rfl⟩
  · intro v hv
    simp [entry, CharObj.getVariants] at hv

theorem writable_new {x : MetaXml.Ctx} (hx : C99.Sound x) (force : Bool) : C99.Writable x force {} :=
  C99.writable_run hx force [] (by simp)

theorem document_of {g : LGR} {ps : List (Nat × Nat)} (h : Made g ps) (hp : Proper ps) :
    ∃ d, serializeDoc { md := {}, lgr := g, rules := {} } = .ok d := by
  obtain ⟨es, -, he, -⟩ := data_round_trip_partial (db := none) (strict := false) (force := true) (m := {}) h.wf
    (made_intact h hp) (fun k c hk => by
      obtain ⟨q, hq, x, h1, h2, rfl⟩ := h.only k c hk
      rw [h.mem q hq x h1 h2] at hk
      cases hk
      exact entry_readable (by simp)) [] []
  have hm : ∃ ms, MetaXml.serializeMeta {} = .ok ms := ⟨_, rfl⟩
  obtain ⟨ms, hm⟩ := hm
  refine ⟨{ metaE := some ms, data := es, rules := some (RulesXml.serializeRules {}) }, ?_⟩
  unfold serializeDoc
  rw [hm]
  simp only
  rw [he]

/-- **C126** The tool prints a document exactly when the numbers of the version are numbers, every record of the registry
of that version has a code point and a property, and the texts of those which may be used name code points, of which
none is there twice. -/
theorem make_ok_iff (pyInt : List Char → Option Int) (version : String) (regs : List Registry) :
    (∃ d, makeRepertoire pyInt version regs = .ok d) ↔
      ∃ id ps, IdOf pyInt version id ∧ Spans (registered id regs) ps ∧ Proper ps := by
  unfold makeRepertoire
  cases hi : registryId pyInt version with
  | none =>
    constructor
    · rintro ⟨d, hd⟩; cases hd
    · rintro ⟨id, ps, h1, -⟩
      rw [id_iff.2 h1] at hi; cases hi
  | some id =>
    simp only
    have hid := id_iff.1 hi
    rw [records_eq]
    obtain ⟨h1, h2⟩ := loop_spec (registered id regs) made_empty (by simp)
    have hc : ∀ q : Nat × Nat, Clear [] q.1 q.2 := fun q => by simp [Clear]
    constructor
    · rintro ⟨d, hd⟩
      refine ⟨id, ?_⟩
      cases hl : forEach addRecord {} (registered id regs) with
      | mk g o =>
        rw [hl] at hd h1
        cases o with
        | error e => cases hd
        | ok u =>
          obtain ⟨qs, a, b, -⟩ := h1.1 rfl
          exact ⟨qs, hid, a, b⟩
    · rintro ⟨id', ps, h3, h4, h5⟩
      have e := id_iff.2 h3
      rw [hi] at e
      cases e
      have ho := h1.2 ⟨ps, h4, h5, fun q _ => hc q⟩
      have hm := h2 ps h4 ho
      cases hl : forEach addRecord {} (registered id regs) with
      | mk g o =>
        rw [hl] at ho hm
        cases ho
        exact document_of hm h5

/-- **C126** The document printed for a version is read, by any parser that allows these code points, as an LGR with
exactly the code points which may be used: those of the records, as single code points or ranges as there, without
comments, tags, references, context rules and variants, and no classes, rules and actions. -/
theorem make_reads (pyInt : List Char → Option Int) (version : String) (regs : List Registry) {id : String}
    {ps : List (Nat × Nat)} {d : Doc} (hid : IdOf pyInt version id) (hs : Spans (registered id regs) ps)
    (hd : makeRepertoire pyInt version regs = .ok d) (R : Reader) (hx : C99.Sound R.x)
    (hv : R.strict = true → ∀ valid, R.db = some valid → ∀ x, C05.Covers ps x → valid x = true)
    (cs : Rfc7940.Results) :
    ∃ cs' g, parseDoc R cs d = (cs', .ok (some g)) ∧
      (∀ k, (g.lgr.rep.lookup k).isSome = true ↔ ∃ x, k = [x] ∧ C05.Covers ps x) ∧
      (∀ p ∈ ps, ∀ x, p.1 ≤ x → x ≤ p.2 → ∃ c, g.lgr.rep.lookup [x] = some c ∧ c.attrs = {} ∧ c.getVariants = [] ∧
        c.range = if p.1 = p.2 then none else some p) ∧
      g.lgr.rep.ranges.Perm (ps.filter (fun p => p.1 ≠ p.2)) ∧
      g.rules.clsNames = [] ∧ g.rules.ruleNames = [] ∧ g.rules.actions = [] ∧
      g.md = { unicodeVersion := some "6.3.0" } := by
  have hp : Proper ps := by
    obtain ⟨id', ps', h1, h2, h3⟩ := (make_ok_iff pyInt version regs).1 ⟨d, hd⟩
    have e := id_iff.2 h1
    rw [id_iff.2 hid] at e
    cases e
    have : ∀ {rs : List Record} {a b}, Spans rs a → Spans rs b → a = b := by
      intro rs a b ha
      induction ha generalizing b with
      | nil => intro hb; cases hb; rfl
      | skip hp _ ih =>
        intro hb
        cases hb with
        | skip _ hb => exact ih hb
        | keep hu _ _ => exact absurd hu (hp _ rfl)
      | keep hu hn _ ih =>
        intro hb
        cases hb with
        | skip hp _ => exact absurd hu (hp _ rfl)
        | keep _ hn' hb =>
          obtain ⟨rfl, rfl⟩ := names_unique hn hn'
          rw [ih hb]
    rw [this hs h2]; exact h3
  unfold makeRepertoire at hd
  rw [id_iff.2 hid] at hd
  simp only [records_eq] at hd
  obtain ⟨-, h2⟩ := loop_spec (registered id regs) made_empty (by simp)
  cases hl : forEach addRecord {} (registered id regs) with
  | mk g o =>
    rw [hl] at hd h2
    cases o with
    | error e => cases hd
    | ok u =>
      have hm : Made g ps := h2 ps hs rfl
      simp only at hd
      obtain ⟨ms, s1, hms, hpm, hmd, -⟩ := C99.meta_round_trip_partial hx.cdata (writable_new hx R.force) cs
      have hnew : (newLgr R s1.md) = { refs := {}, raiseInvalid := R.strict } := by
        rw [hmd]; rfl
      obtain ⟨es, s2, hes, hpd, q1, q2, q3, -⟩ := data_round_trip_partial (db := R.db) (strict := R.strict)
        (force := R.force) (m := {}) hm.wf (made_intact hm hp) (fun k c hk => by
          obtain ⟨q, hq, x, h1, h2, rfl⟩ := hm.only k c hk
          rw [hm.mem q hq x h1 h2] at hk
          cases hk
          exact entry_readable fun a v b => hv a v b x ⟨q, hq, h1, h2⟩) s1.checks []
      unfold serializeDoc at hd
      rw [hms] at hd
      simp only at hd
      rw [hes] at hd
      cases hd
      refine ⟨Rfc7940.addTestResult (noteBad false s2.checks) "parse_xml" true,
        { md := s1.md, lgr := s2.lgr, rules := newRules s2.lgr, ids := 0 }, ?_, ?_, ?_⟩
      · unfold parseDoc
        simp only
        rw [hpm]
        simp only
        rw [hnew, hpd]
        rfl
      · intro k
        constructor
        · intro hk
          obtain ⟨c, hc⟩ := Option.isSome_iff_exists.1 (q2 k hk)
          obtain ⟨q, hq, x, h1, h2, e⟩ := hm.only k c hc
          exact ⟨x, e, q, hq, h1, h2⟩
        · rintro ⟨x, rfl, q, hq, h1, h2⟩
          obtain ⟨c, hc, -⟩ := q1 [x] _ (hm.mem q hq x h1 h2)
          change (s2.lgr.rep.lookup [x]).isSome = true
          rw [hc]; rfl
      · refine ⟨?_, ?_, rfl, rfl, rfl, ?_⟩
        · intro q hq x h1 h2
          obtain ⟨c, hc, sm⟩ := q1 [x] _ (hm.mem q hq x h1 h2)
          exact ⟨c, hc, sm.attrs.symm, sm.vars.symm, sm.range.symm⟩
        · rw [← hm.ranges]; exact q3
        · exact hmd

/-- What one expects of the document: it states the version of Unicode of the registry it was made from. -/
def States (pyInt : List Char → Option Int) : Prop :=
  ∀ version regs d, makeRepertoire pyInt version regs = .ok d → ∀ R : Reader, C99.Sound R.x → R.db = none →
    ∃ cs g, parseDoc R [] d = (cs, .ok (some g)) ∧ g.md.unicodeVersion = some version

/-- **C126** (violated) Whatever the version, the document says `6.3.0`. -/
theorem states_wrong (pyInt : List Char → Option Int) (version : String) (regs : List Registry) {d : Doc}
    (hd : makeRepertoire pyInt version regs = .ok d) (hn : version ≠ "6.3.0") (R : Reader) (hx : C99.Sound R.x)
    (hdb : R.db = none) (cs : Rfc7940.Results) :
    ∃ cs' g, parseDoc R cs d = (cs', .ok (some g)) ∧ g.md.unicodeVersion = some "6.3.0" ∧
      g.md.unicodeVersion ≠ some version := by
  obtain ⟨id, ps, h1, h2, -⟩ := (make_ok_iff pyInt version regs).1 ⟨d, hd⟩
  obtain ⟨cs', g, h3, -, -, -, -, -, -, h4⟩ := make_reads pyInt version regs h1 h2 hd R hx (by simp [hdb]) cs
  refine ⟨cs', g, h3, by rw [h4], ?_⟩
  rw [h4]
  simpa using fun e => hn e.symm

/-! ## An example -/

/-- Decimal numbers. -/
def int0 (s : List Char) : Option Int := (RulesXml.parseDec s).map Int.ofNat

def regs0 : List Registry :=
  [⟨some "idna-tables-properties", [⟨some (some "0000-002C".toList), some (some "DISALLOWED")⟩,
      ⟨some (some "002D".toList), some (some "PVALID")⟩, ⟨some (some "0061-007A".toList), some (some "PVALID")⟩,
      ⟨some (some "00B7".toList), some (some "CONTEXTO")⟩]⟩,
   ⟨some "idna-tables-context", [⟨none, none⟩]⟩]

theorem id0 : IdOf int0 "12.0.0" "idna-tables-properties" :=
  ⟨[12, 0, 0], by decide +kernel, .inr ⟨by decide, rfl⟩⟩

theorem hex0 {s : String} {n : Nat} (h : parseHex s.toList = some n) : C102.Hex s.toList n := C102.hex_iff.1 h

theorem spans0 : Spans (registered "idna-tables-properties" regs0) [(0x2D, 0x2D), (0x61, 0x7A), (0xB7, 0xB7)] := by
  have e : registered "idna-tables-properties" regs0 =
      [⟨some (some "0000-002C".toList), some (some "DISALLOWED")⟩, ⟨some (some "002D".toList), some (some "PVALID")⟩,
       ⟨some (some ("0061".toList ++ '-' :: "007A".toList)), some (some "PVALID")⟩,
       ⟨some (some "00B7".toList), some (some "CONTEXTO")⟩] := by decide +kernel
  rw [e]
  exact .skip (by rintro q h (rfl | rfl | rfl) <;> simp at h)
    (.keep (.inl rfl) (.one (hex0 (by decide +kernel)))
      (.keep (.inl rfl) (.two (hex0 (by decide +kernel)) (hex0 (by decide +kernel)))
        (.keep (.inr (.inr rfl)) (.one (hex0 (by decide +kernel))) .nil)))

/-- A document is printed for this registry; its code points are the hyphen, the small letters and the middle dot. -/
example : ∃ d, makeRepertoire int0 "12.0.0" regs0 = .ok d := by
  refine (make_ok_iff _ _ _).2 ⟨_, _, id0, spans0, ?_, ?_⟩
  · decide
  · decide

/-- None is printed when a code point is in two records. -/
example : ¬ ∃ d, makeRepertoire int0 "12.0.0" (regs0 ++ regs0) = .ok d := by
  rintro ⟨d, hd⟩
  have : (match makeRepertoire int0 "12.0.0" (regs0 ++ regs0) with
    | .ok _ => none
    | .error e => some e) = some (.charAlreadyExists [0x2D]) := by decide +kernel
  rw [hd] at this; cases this

/-- And so the property is violated. -/
theorem states_violated : ¬ States int0 := by
  intro h
  obtain ⟨d, hd⟩ : ∃ d, makeRepertoire int0 "12.0.0" regs0 = .ok d :=
    (make_ok_iff _ _ _).2 ⟨_, _, id0, spans0, by decide, by decide⟩
  let R : Reader := { x := C99.x0, db := none, props := fun _ => .error .valueError, fuel := 0, strict := false, force := true }
  obtain ⟨cs, g, h1, h2⟩ := h _ _ d hd R C99.x0_sound rfl
  obtain ⟨cs', g', h3, -, h4⟩ := states_wrong int0 _ _ hd (by decide) R C99.x0_sound rfl []
  rw [h1] at h3
  simp only [Prod.mk.injEq, Except.ok.injEq, Option.some.injEq] at h3
  exact h4 (h3.2 ▸ h2)

end Lgr.Props.C126

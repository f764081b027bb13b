import Verif.Rule

/-!
# Classes denote the set algebra they spell
-/

namespace Lgr.C42
open Lgr Cls

/-! ## Specification -/

/-- What names and tags stand for. -/
structure Sets where
  name : String → Nat → Prop
  tag : String → Nat → Prop

mutual

/-- The set a class spells, with `ρ` for the names and tags in it. -/
def Den (db : String → Except Err CpSet) (ρ : Sets) : Cls → Nat → Prop
  | .base b, x =>
    match b.byRef, b.fromTag, b.property with
    | some n, _, _ => ρ.name n x
    | none, some t, _ => ρ.tag t x
    | none, none, some p => ∃ s, db p = .ok s ∧ s x = true
    | none, none, none => x ∈ b.codepoints
  | .comb _ op cs, x =>
    match op, Dens db ρ cs with
    | .complement, [a] => x < 0x110000 ∧ ¬a x
    | .union, as => ∃ a ∈ as, a x
    | .intersection, as => ∀ a ∈ as, a x
    | .difference, [a, b] => a x ∧ ¬b x
    | .symDiff, [a, b] => (a x ∧ ¬b x) ∨ (b x ∧ ¬a x)
    | _, _ => False

/-- The sets of the children. -/
def Dens (db : String → Except Err CpSet) (ρ : Sets) : List Cls → List (Nat → Prop)
  | [] => []
  | c :: cs => Den db ρ c :: Dens db ρ cs

end

/-- Names stand for the sets of their classes, tags for those of the classes of tags. -/
structure Solves (db : String → Except Err CpSet) (lk : List (String × Cls)) (ρ : Sets) : Prop where
  name : ∀ n c, dget lk n = some c → ∀ x, ρ.name n x ↔ Den db ρ c x
  tag : ∀ t x, ρ.tag t x ↔ ∃ c, dget lk (tagPrefix ++ t) = some c ∧ Den db ρ c x

mutual

/-- Something holds at all leaves, and something of all combinators and the number of their children. -/
def Every (P : BaseCls → Prop) (Q : Comb → Nat → Prop) : Cls → Prop
  | .base b => P b
  | .comb _ op cs => Q op cs.length ∧ EveryL P Q cs

/-- The same for lists. -/
def EveryL (P : BaseCls → Prop) (Q : Comb → Nat → Prop) : List Cls → Prop
  | [] => True
  | c :: cs => Every P Q c ∧ EveryL P Q cs

end

/-- The numbers of children RFC 7940 asks for. -/
def Arity (op : Comb) (n : Nat) : Prop :=
  match op with
  | .complement => n = 1
  | .union => 2 ≤ n
  | _ => n = 2

/-! ## Lemmas -/

theorem everyL_iff {P : BaseCls → Prop} {Q : Comb → Nat → Prop} {cs : List Cls} :
    EveryL P Q cs ↔ ∀ c ∈ cs, Every P Q c := by
  induction cs with
  | nil => simp [EveryL]
  | cons c cs ih => simp [EveryL, ih]

theorem dens_eq (db : String → Except Err CpSet) (ρ : Sets) (cs : List Cls) :
    Dens db ρ cs = cs.map (Den db ρ) := by
  induction cs with
  | nil => rfl
  | cons c cs ih => simp [Dens, ih]

/-- An induction principle for classes. -/
theorem cls_ind {motive : Cls → Prop} (hb : ∀ b, motive (.base b))
    (hc : ∀ n op cs, (∀ c ∈ cs, motive c) → motive (.comb n op cs)) : ∀ c, motive c := by
  intro c
  refine Cls.rec (motive_1 := motive) (motive_2 := fun cs => ∀ c ∈ cs, motive c) hb hc (by simp) ?_ c
  intro c cs h1 h2 d hd
  rcases List.mem_cons.mp hd with rfl | hd
  · exact h1
  · exact h2 d hd

theorem every_mono {P P' : BaseCls → Prop} {Q Q' : Comb → Nat → Prop} (hP : ∀ b, P b → P' b)
    (hQ : ∀ op n, Q op n → Q' op n) : ∀ c, Every P Q c → Every P' Q' c := by
  refine cls_ind (fun b h => hP b h) ?_
  intro n op cs ih h
  rw [Every, everyL_iff] at h ⊢
  exact ⟨hQ _ _ h.1, fun c hc => ih c hc (h.2 c hc)⟩

theorem mapM_ok {α β : Type} {f : α → Except Err β} {l : List α} {rs : List β} :
    l.mapM f = .ok rs ↔ List.Forall₂ (fun a r => f a = .ok r) l rs := by
  induction l generalizing rs with
  | nil =>
    simp only [List.mapM_nil, List.forall₂_nil_left_iff]
    constructor
    · intro h; cases h; rfl
    · rintro rfl; rfl
  | cons a l ih =>
    rw [List.mapM_cons]
    cases hf : f a with
    | error e =>
      constructor
      · intro h; cases h
      · intro h
        cases h with
        | cons h1 h2 => rw [hf] at h1; cases h1
    | ok r =>
      cases hl : l.mapM f with
      | error e =>
        constructor
        · intro h
          simp only [hl, bind, Except.bind] at h
          cases h
        · intro h
          cases h with
          | cons h1 h2 => rw [ih.mpr h2] at hl; cases hl
      | ok rs' =>
        constructor
        · intro h
          simp only [hl, bind, Except.bind, pure, Except.pure] at h
          cases h
          exact .cons hf (ih.mp hl)
        · intro h
          cases h with
          | cons h1 h2 =>
            rw [ih.mpr h2] at hl
            cases hl
            rw [hf] at h1
            cases h1
            rfl

mutual

/-- RFC 7940 6.2: references are to defined classes, combinators have the right number of children, which
have no names. -/
def Proper (lk : List (String × Cls)) : Cls → Prop
  | .base b => ∀ n, b.byRef = some n → n ∈ lk.map Prod.fst
  | .comb _ op cs => Arity op cs.length ∧ ProperL lk cs

/-- The same for children. -/
def ProperL (lk : List (String × Cls)) : List Cls → Prop
  | [] => True
  | c :: cs => (RuleState.clsName c = none ∧ Proper lk c) ∧ ProperL lk cs

end

/-- Validation accepts exactly the classes which are as RFC 7940 wants them. -/
theorem validate_exact (lk : List (String × Cls)) : ∀ c top, Cls.validate lk top c = .ok () ↔
    ((RuleState.clsName c).isSome = top ∧ Proper lk c) := by
  refine cls_ind ?_ ?_
  · intro b top
    simp only [Cls.validate, Proper, RuleState.clsName, ← dget_isSome]
    cases hb : b.byRef with
    | none => cases top <;> cases b.name <;> simp
    | some n =>
      cases hd : dget lk n with
      | none => simp [hd]
      | some c => cases top <;> cases b.name <;> simp [hd]
  · intro n op cs ih top
    have hall : Cls.validateAll lk cs = .ok () ↔ ProperL lk cs := by
      clear n op top
      induction cs with
      | nil => simp [Cls.validateAll, ProperL]
      | cons c cs ihcs =>
        have h1 := ih c (by simp) false
        have h2 := ihcs (fun d hd => ih d (by simp [hd]))
        rw [Cls.validateAll, ProperL, ← h2]
        have h3 : RuleState.clsName c = none ↔ (RuleState.clsName c).isSome = false := by simp
        rw [h3, ← h1]
        cases hc : Cls.validate lk false c with
        | error e => simp
        | ok u => simp
    rw [Proper, RuleState.clsName, ← hall]
    cases hv : Cls.validateAll lk cs with
    | error e => cases op <;> cases top <;> cases n <;> simp [Cls.validate, hv]
    | ok u => cases op <;> cases top <;> cases n <;> simp [Cls.validate, hv, Arity]

theorem proper_every {lk : List (String × Cls)} : ∀ c, Proper lk c →
    Every (fun b => ∀ n, b.byRef = some n → n ∈ lk.map Prod.fst) Arity c := by
  refine cls_ind (fun b h => h) ?_
  intro n op cs ih h
  rw [Proper] at h
  rw [Every]
  refine ⟨h.1, ?_⟩
  have h2 := h.2
  clear h
  induction cs with
  | nil => trivial
  | cons c cs ihcs =>
    exact ⟨ih c (by simp) h2.1.2, ihcs (fun d hd => ih d (by simp [hd])) h2.2⟩

/-! ## Main results -/

variable {db : String → Except Err CpSet} {lk : List (String × Cls)}

theorem getSet_mono : ∀ fuel (k : Cls) s, getSet db lk fuel k = .ok s → getSet db lk (fuel + 1) k = .ok s := by
  intro fuel
  induction fuel with
  | zero => intro k s h; simp [getSet] at h
  | succ fuel ih =>
    intro k s h
    cases k with
    | base b =>
      rw [getSet] at h ⊢
      cases hb : b.byRef with
      | some n =>
        simp only [hb] at h ⊢
        cases hd : dget lk n with
        | none => simp [hd] at h
        | some c => simp only [hd] at h ⊢; exact ih _ _ h
      | none =>
        simp only [hb] at h ⊢
        cases ht : b.fromTag with
        | some t =>
          simp only [ht] at h ⊢
          cases hd : dget lk (tagPrefix ++ t) with
          | none => simpa [hd] using h
          | some c => simp only [hd] at h ⊢; exact ih _ _ h
        | none => simpa [ht] using h
    | comb n op cs =>
      have two : ∀ (op : Comb), op ≠ .complement → op ≠ .union → getSet db lk (fuel + 1) (.comb n op cs) = .ok s →
          getSet db lk (fuel + 1 + 1) (.comb n op cs) = .ok s := by
        intro op h1 h2 h
        cases cs with
        | nil => cases op <;> simp [getSet] at h h1 h2
        | cons c cs =>
          cases hc : getSet db lk fuel c with
          | error e => cases op <;> simp [getSet, hc] at h h1 h2
          | ok s1 =>
            cases cs with
            | nil => cases op <;> simp [getSet, hc] at h h1 h2
            | cons d cs =>
              cases hd : getSet db lk fuel d with
              | error e => cases op <;> simp [getSet, hc, hd] at h h1 h2
              | ok s2 =>
                have e1 := ih _ _ hc
                have e2 := ih _ _ hd
                cases op <;> simp only [getSet, hc, hd] at h <;>
                  first | exact absurd rfl h1 | exact absurd rfl h2 | skip
                all_goals (rw [getSet]; simp only [e1, e2]; exact h) <;> simp
      cases op with
      | complement =>
        cases cs with
        | nil => simp [getSet] at h
        | cons c cs =>
          cases hc : getSet db lk fuel c with
          | error e => simp [getSet, hc] at h
          | ok s1 =>
            have e1 := ih _ _ hc
            rw [getSet] at h ⊢
            simp only [hc] at h
            simp only [e1]
            exact h
      | union =>
        cases hc : cs.mapM (getSet db lk fuel) with
        | error e => simp [getSet, hc] at h
        | ok ss =>
          have e1 : cs.mapM (getSet db lk (fuel + 1)) = .ok ss :=
            mapM_ok.mpr ((mapM_ok.mp hc).imp (fun a b hab => ih _ _ hab))
          rw [getSet] at h ⊢
          simp only [hc] at h
          simp only [e1]
          exact h
      | intersection => exact two _ (by simp) (by simp) h
      | difference => exact two _ (by simp) (by simp) h
      | symDiff => exact two _ (by simp) (by simp) h

theorem getSet_mono_le {fuel fuel' : Nat} (hle : fuel ≤ fuel') {k : Cls} {s : CpSet}
    (h : getSet db lk fuel k = .ok s) : getSet db lk fuel' k = .ok s := by
  induction hle with
  | refl => exact h
  | step _ ih => exact getSet_mono _ _ _ ih

/-- One step of evaluation. -/
theorem step {ρ : Sets} {fuel : Nat}
    (ih : ∀ (k : Cls) (s : CpSet), Every (fun _ => True) Arity k →
      getSet db lk fuel k = .ok s → ∀ x, s x = true ↔ Den db ρ k x)
    (hname : ∀ n c s, dget lk n = some c → getSet db lk fuel c = .ok s → ∀ x, s x = true ↔ ρ.name n x)
    (htag : ∀ t c s, dget lk (tagPrefix ++ t) = some c → getSet db lk fuel c = .ok s →
      ∀ x, s x = true ↔ ρ.tag t x)
    (hnone : ∀ t, dget lk (tagPrefix ++ t) = none → ∀ x, ¬ρ.tag t x)
    (k : Cls) (s : CpSet) (hk : Every (fun _ => True) Arity k)
    (h : getSet db lk (fuel + 1) k = .ok s) (x : Nat) : s x = true ↔ Den db ρ k x := by
    cases k with
    | base b =>
      rw [getSet] at h
      rw [Den]
      cases hb : b.byRef with
      | some n =>
        simp only [hb] at h ⊢
        cases hd : dget lk n with
        | none => simp [hd] at h
        | some c =>
          simp only [hd] at h
          exact hname n c s hd h x
      | none =>
        simp only [hb] at h ⊢
        cases ht : b.fromTag with
        | some t =>
          simp only [ht] at h ⊢
          cases hd : dget lk (tagPrefix ++ t) with
          | none =>
            simp only [hd] at h
            cases h
            simp [hnone t hd x]
          | some c =>
            simp only [hd] at h
            exact htag t c s hd h x
        | none =>
          simp only [ht] at h ⊢
          cases hp : b.property with
          | none =>
            simp only [hp] at h ⊢
            cases h
            simp
          | some p =>
            simp only [hp] at h ⊢
            constructor
            · intro hx; exact ⟨s, h, hx⟩
            · rintro ⟨s', hs', hx⟩
              rw [h] at hs'; cases hs'; exact hx
    | comb n op cs =>
      rw [Every, everyL_iff] at hk
      obtain ⟨hn, hcs⟩ := hk
      cases op with
      | complement =>
        match cs, hn with
        | [c], _ =>
          cases hc : getSet db lk fuel c with
          | error e => simp [getSet, hc] at h
          | ok s1 =>
            have e := ih c s1 (hcs c (by simp)) hc x
            simp only [getSet, hc] at h
            cases h
            simp only [Den, dens_eq, allCps, Bool.and_eq_true, decide_eq_true_eq, Bool.not_eq_true', List.map_cons,
              List.map_nil]
            rw [← e]
            simp
      | union =>
        cases hc : cs.mapM (getSet db lk fuel) with
        | error e => simp [getSet, hc] at h
        | ok ss =>
          simp only [getSet, hc] at h
          cases h
          have hf := mapM_ok.mp hc
          simp only [Den, dens_eq, List.any_eq_true, List.mem_map]
          constructor
          · rintro ⟨s', hs', hx⟩
            obtain ⟨c, hcm, hcs'⟩ : ∃ c ∈ cs, getSet db lk fuel c = .ok s' := by
              clear hn hcs hc
              induction hf with
              | nil => cases hs'
              | @cons a b l r h1 h2 ih2 =>
                rcases List.mem_cons.mp hs' with rfl | hs'
                · exact ⟨a, by simp, h1⟩
                · obtain ⟨c, h3, h4⟩ := ih2 hs'
                  exact ⟨c, by simp [h3], h4⟩
            exact ⟨_, ⟨c, hcm, rfl⟩, (ih c s' (hcs c hcm) hcs' x).mp hx⟩
          · rintro ⟨_, ⟨c, hcm, rfl⟩, hx⟩
            obtain ⟨s', hs', hcs'⟩ : ∃ s' ∈ ss, getSet db lk fuel c = .ok s' := by
              clear hn hcs hc
              induction hf with
              | nil => cases hcm
              | @cons a b l r h1 h2 ih2 =>
                rcases List.mem_cons.mp hcm with rfl | hcm
                · exact ⟨b, by simp, h1⟩
                · obtain ⟨c, h3, h4⟩ := ih2 hcm
                  exact ⟨c, by simp [h3], h4⟩
            exact ⟨s', hs', (ih c s' (hcs c hcm) hcs' x).mpr hx⟩
      | intersection =>
        match cs, hn with
        | [c, d], _ =>
          cases hc : getSet db lk fuel c with
          | error e => simp [getSet, hc] at h
          | ok s1 =>
            cases hd : getSet db lk fuel d with
            | error e => simp [getSet, hc, hd] at h
            | ok s2 =>
              have e1 := ih c s1 (hcs c (by simp)) hc x
              have e2 := ih d s2 (hcs d (by simp)) hd x
              simp only [getSet, hc, hd] at h
              cases h
              simp [Den, dens_eq, e1, e2]
      | difference =>
        match cs, hn with
        | [c, d], _ =>
          cases hc : getSet db lk fuel c with
          | error e => simp [getSet, hc] at h
          | ok s1 =>
            cases hd : getSet db lk fuel d with
            | error e => simp [getSet, hc, hd] at h
            | ok s2 =>
              have e1 := ih c s1 (hcs c (by simp)) hc x
              have e2 := ih d s2 (hcs d (by simp)) hd x
              simp only [getSet, hc, hd] at h
              cases h
              simp [Den, dens_eq, e1, ← e2]
      | symDiff =>
        match cs, hn with
        | [c, d], _ =>
          cases hc : getSet db lk fuel c with
          | error e => simp [getSet, hc] at h
          | ok s1 =>
            cases hd : getSet db lk fuel d with
            | error e => simp [getSet, hc, hd] at h
            | ok s2 =>
              have e1 := ih c s1 (hcs c (by simp)) hc x
              have e2 := ih d s2 (hcs d (by simp)) hd x
              simp only [getSet, hc, hd] at h
              cases h
              simp only [Den, dens_eq, List.map_cons, List.map_nil, ← e1, ← e2]
              cases s1 x <;> cases s2 x <;> simp

/-- If a class can be evaluated, the result is the set it spells: with whatever sets for the names and tags
which agree with their definitions. -/
theorem class_set_exact {ρ : Sets} (hρ : Solves db lk ρ)
    (hlk : ∀ n c, dget lk n = some c → Every (fun _ => True) Arity c) :
    ∀ (fuel : Nat) (k : Cls) (s : CpSet), Every (fun _ => True) Arity k →
      getSet db lk fuel k = .ok s → ∀ x, s x = true ↔ Den db ρ k x := by
  intro fuel
  induction fuel with
  | zero => intro k s _ h; simp [getSet] at h
  | succ fuel ih =>
    intro k s hk h x
    refine step ih ?_ ?_ ?_ k s hk h x
    · intro n c s hc hs x
      rw [hρ.name n c hc x]
      exact ih c s (hlk n c hc) hs x
    · intro t c s hc hs x
      rw [hρ.tag, ih c s (hlk _ c hc) hs x]
      constructor
      · intro h; exact ⟨c, hc, h⟩
      · rintro ⟨c', hc', h⟩; rw [hc] at hc'; cases hc'; exact h
    · intro t ht x
      rw [hρ.tag]
      rintro ⟨c, hc, -⟩
      rw [ht] at hc; cases hc

/-- A leaf can be evaluated: its reference is defined and of a lower rank, its property is known. -/
def Leaf (db : String → Except Err CpSet) (lk : List (String × Cls)) (rank : String → Nat) (N : Nat)
    (b : BaseCls) : Prop :=
  match b.byRef, b.fromTag, b.property with
  | some n, _, _ => n ∈ lk.map Prod.fst ∧ rank n < N
  | none, some t, _ => tagPrefix ++ t ∈ lk.map Prod.fst → rank (tagPrefix ++ t) < N
  | none, none, some p => ∃ s, db p = .ok s
  | none, none, none => True

/-- The definitions are not circular. -/
def Ranked (db : String → Except Err CpSet) (lk : List (String × Cls)) (rank : String → Nat) : Prop :=
  ∀ n c, dget lk n = some c → Every (Leaf db lk rank (rank n)) Arity c

theorem mapM_total {fs : List Cls} (h : ∀ c ∈ fs, ∃ fuel s, getSet db lk fuel c = .ok s) :
    ∃ fuel ss, fs.mapM (getSet db lk fuel) = .ok ss := by
  induction fs with
  | nil => exact ⟨0, [], rfl⟩
  | cons c cs ih =>
    obtain ⟨f1, s, hs⟩ := h c (by simp)
    obtain ⟨f2, ss, hss⟩ := ih (fun d hd => h d (by simp [hd]))
    refine ⟨max f1 f2, s :: ss, mapM_ok.mpr (.cons (getSet_mono_le (by omega) hs) ?_)⟩
    exact (mapM_ok.mp hss).imp (fun a b hab => getSet_mono_le (by omega) hab)

/-- Validated classes can be evaluated, if definitions are not circular. -/
theorem class_total {rank : String → Nat} (hr : Ranked db lk rank) :
    ∀ N (k : Cls), Every (Leaf db lk rank N) Arity k → ∃ fuel s, getSet db lk fuel k = .ok s := by
  intro N
  induction N using Nat.strong_induction_on with
  | _ N ihN =>
    refine cls_ind ?_ ?_
    · intro b h
      rw [Every, Leaf] at h
      cases hb : b.byRef with
      | some n =>
        simp only [hb] at h
        obtain ⟨c, hc⟩ := Option.isSome_iff_exists.mp (dget_isSome.mpr h.1)
        obtain ⟨f, s, hs⟩ := ihN _ h.2 c (hr n c hc)
        exact ⟨f + 1, s, by rw [getSet]; simp only [hb, hc, hs]⟩
      | none =>
        cases ht : b.fromTag with
        | some t =>
          simp only [hb, ht] at h
          cases hd : dget lk (tagPrefix ++ t) with
          | none => exact ⟨1, _, by rw [getSet]; simp only [hb, ht, hd]; rfl⟩
          | some c =>
            have hm := h (dget_isSome.mp (by simp [hd]))
            obtain ⟨f, s, hs⟩ := ihN _ hm c (hr _ c hd)
            exact ⟨f + 1, s, by rw [getSet]; simp only [hb, ht, hd, hs]⟩
        | none =>
          cases hp : b.property with
          | none => exact ⟨1, _, by rw [getSet]; simp only [hb, ht, hp]; rfl⟩
          | some p =>
            simp only [hb, ht, hp] at h
            obtain ⟨s, hs⟩ := h
            exact ⟨1, s, by rw [getSet]; simp only [hb, ht, hp, hs]⟩
    · intro n op cs ih h
      rw [Every, everyL_iff] at h
      obtain ⟨hn, hcs⟩ := h
      obtain ⟨f, ss, hss⟩ := mapM_total (fun c hc => ih c hc (hcs c hc))
      have hf := mapM_ok.mp hss
      cases op with
      | complement =>
        match cs, hn, ss, hf with
        | [c], _, [s1], .cons h1 _ => exact ⟨f + 1, _, by rw [getSet]; simp only [h1]; rfl⟩
      | union => exact ⟨f + 1, _, by rw [getSet]; simp only [hss]; rfl⟩
      | intersection =>
        match cs, hn, ss, hf with
        | [c, d], _, [s1, s2], .cons h1 (.cons h2 _) =>
          exact ⟨f + 1, _, by simp only [getSet, h1, h2]; rfl⟩
      | difference =>
        match cs, hn, ss, hf with
        | [c, d], _, [s1, s2], .cons h1 (.cons h2 _) =>
          exact ⟨f + 1, _, by simp only [getSet, h1, h2]; rfl⟩
      | symDiff =>
        match cs, hn, ss, hf with
        | [c, d], _, [s1, s2], .cons h1 (.cons h2 _) =>
          exact ⟨f + 1, _, by simp only [getSet, h1, h2]; rfl⟩

/-- The sets found by evaluation. -/
def evalSets (db : String → Except Err CpSet) (lk : List (String × Cls)) : Sets where
  name n x := ∃ c fuel s, dget lk n = some c ∧ getSet db lk fuel c = .ok s ∧ s x = true
  tag t x := ∃ c fuel s, dget lk (tagPrefix ++ t) = some c ∧ getSet db lk fuel c = .ok s ∧ s x = true

theorem getSet_unique {f f' : Nat} {k : Cls} {s s' : CpSet} (h : getSet db lk f k = .ok s)
    (h' : getSet db lk f' k = .ok s') : s = s' := by
  have h1 := getSet_mono_le (Nat.le_max_left f f') h
  have h2 := getSet_mono_le (Nat.le_max_right f f') h'
  rw [h1] at h2
  cases h2
  rfl

theorem evalSets_den : ∀ (fuel : Nat) (k : Cls) (s : CpSet), Every (fun _ => True) Arity k →
      getSet db lk fuel k = .ok s → ∀ x, s x = true ↔ Den db (evalSets db lk) k x := by
  intro fuel
  induction fuel with
  | zero => intro k s _ h; simp [getSet] at h
  | succ fuel ih =>
    intro k s hk h x
    refine step ih ?_ ?_ ?_ k s hk h x
    · intro n c s hc hs x
      constructor
      · intro hx; exact ⟨c, fuel, s, hc, hs, hx⟩
      · rintro ⟨c', f', s', hc', hs', hx⟩
        rw [hc] at hc'; cases hc'
        rw [getSet_unique hs hs']; exact hx
    · intro t c s hc hs x
      constructor
      · intro hx; exact ⟨c, fuel, s, hc, hs, hx⟩
      · rintro ⟨c', f', s', hc', hs', hx⟩
        rw [hc] at hc'; cases hc'
        rw [getSet_unique hs hs']; exact hx
    · rintro t ht x ⟨c, f, s, hc, -⟩
      rw [ht] at hc; cases hc

/-- If definitions are not circular there are sets for names and tags which agree with their definitions,
and every validated class is evaluated to the set it spells. -/
theorem classes_denote {rank : String → Nat} (hr : Ranked db lk rank) :
    ∃ ρ, Solves db lk ρ ∧ ∀ N (k : Cls), Every (Leaf db lk rank N) Arity k →
      ∃ fuel s, (∀ fuel', fuel ≤ fuel' → getSet db lk fuel' k = .ok s) ∧ ∀ x, s x = true ↔ Den db ρ k x := by
  have hA : ∀ n c, dget lk n = some c → Every (fun _ => True) Arity c := fun n c hc =>
    every_mono (fun _ _ => trivial) (fun _ _ h => h) c (hr n c hc)
  refine ⟨evalSets db lk, ⟨?_, ?_⟩, ?_⟩
  · intro n c hc x
    obtain ⟨f, s, hs⟩ := class_total hr _ c (hr n c hc)
    rw [← evalSets_den f c s (hA n c hc) hs x]
    constructor
    · rintro ⟨c', f', s', hc', hs', hx⟩
      rw [hc] at hc'; cases hc'
      rw [getSet_unique hs hs']; exact hx
    · intro hx; exact ⟨c, f, s, hc, hs, hx⟩
  · intro t x
    constructor
    · rintro ⟨c', f', s', hc', hs', hx⟩
      exact ⟨c', hc', (evalSets_den f' c' s' (hA _ c' hc') hs' x).mp hx⟩
    · rintro ⟨c, hc, hx⟩
      obtain ⟨f, s, hs⟩ := class_total hr _ c (hr _ c hc)
      exact ⟨c, f, s, hc, hs, (evalSets_den f c s (hA _ c hc) hs x).mpr hx⟩
  · intro N k hk
    obtain ⟨f, s, hs⟩ := class_total hr N k hk
    exact ⟨f, s, fun f' hf' => getSet_mono_le hf' hs,
      evalSets_den f k s (every_mono (fun _ _ => trivial) (fun _ _ h => h) k hk) hs⟩

/-- The sets of names and tags are determined by their definitions. -/
theorem sets_unique {rank : String → Nat} (hr : Ranked db lk rank) {ρ ρ' : Sets} (h : Solves db lk ρ)
    (h' : Solves db lk ρ') :
    (∀ n, n ∈ lk.map Prod.fst → ∀ x, ρ.name n x ↔ ρ'.name n x) ∧ ∀ t x, ρ.tag t x ↔ ρ'.tag t x := by
  have hA : ∀ n c, dget lk n = some c → Every (fun _ => True) Arity c := fun n c hc =>
    every_mono (fun _ _ => trivial) (fun _ _ h => h) c (hr n c hc)
  have key : ∀ n c, dget lk n = some c → ∀ x, Den db ρ c x ↔ Den db ρ' c x := by
    intro n c hc x
    obtain ⟨f, s, hs⟩ := class_total hr _ c (hr n c hc)
    rw [← class_set_exact h hA f c s (hA n c hc) hs x, ← class_set_exact h' hA f c s (hA n c hc) hs x]
  constructor
  · intro n hn x
    obtain ⟨c, hc⟩ := Option.isSome_iff_exists.mp (dget_isSome.mpr hn)
    rw [h.name n c hc, h'.name n c hc]
    exact key n c hc x
  · intro t x
    rw [h.tag, h'.tag]
    constructor
    · rintro ⟨c, hc, hx⟩; exact ⟨c, hc, (key _ c hc x).mp hx⟩
    · rintro ⟨c, hc, hx⟩; exact ⟨c, hc, (key _ c hc x).mpr hx⟩

/-- A reference to an undefined class raises `RuleError`. -/
theorem undefined_reference_raises (fuel : Nat) (b : BaseCls) (n : String) (hb : b.byRef = some n)
    (hn : n ∉ lk.map Prod.fst) : getSet db lk (fuel + 1) (.base b) = .error (.ruleError n) := by
  rw [getSet]
  simp only [hb, dget_eq_none.mpr hn]

/-- An undefined tag is the empty set. -/
theorem undefined_tag_empty (fuel : Nat) (b : BaseCls) (t : String) (hb : b.byRef = none)
    (ht : b.fromTag = some t) (hn : tagPrefix ++ t ∉ lk.map Prod.fst) :
    ∃ s, getSet db lk (fuel + 1) (.base b) = .ok s ∧ ∀ x, s x = false := by
  rw [getSet]
  simp only [hb, ht, dget_eq_none.mpr hn]
  exact ⟨_, rfl, fun _ => rfl⟩

/-! ## Definitions made by a history of calls -/

/-- Calls which define classes. -/
inductive Call where
  | cls (k : Cls)
  | tag (cp : Seq) (t : String)
  | untag (cp : Seq) (t : String)

/-- The effect of a call; `add_class` is not forced. -/
def Call.run (s : RuleState) : Call → RuleState
  | .cls k => (s.addClass k false).1
  | .tag cp t => s.addTag cp t
  | .untag cp t => s.delTag cp t

/-- The calls define no name twice, and no name that looks like a tag's. -/
def Fresh : RuleState → List Call → Prop
  | _, [] => True
  | s, c :: cs =>
    (match c with
     | .cls k => ∀ n, RuleState.clsName k = some n → n ∉ s.lk.classes.map Prod.fst ∧ ∀ t, n ≠ tagPrefix ++ t
     | _ => True) ∧ Fresh (c.run s) cs

/-- The properties used are known, and `by-ref` comes alone (`Class.__init__`). -/
def Known (db : String → Except Err CpSet) (b : BaseCls) : Prop :=
  ∀ p, b.property = some p → ∃ s, db p = .ok s

/-- What such calls maintain. -/
def Inv (db : String → Except Err CpSet) (lk : List (String × Cls)) (rank : String → Nat) : Prop :=
  Ranked db lk rank ∧ (∀ t, rank (tagPrefix ++ t) = 0) ∧
  (∀ n c, dget lk n = some c → (∀ t, n ≠ tagPrefix ++ t) → 0 < rank n) ∧
  (∀ t c, dget lk (tagPrefix ++ t) = some c → ∃ b, c = .base b ∧ b.byRef = none ∧ b.fromTag = none ∧
    b.property = none)

theorem inv_tag {db : String → Except Err CpSet} {lk : List (String × Cls)} {rank : String → Nat}
    (h : Inv db lk rank) (t : String) (b : BaseCls) (h1 : b.byRef = none) (h2 : b.fromTag = none)
    (h3 : b.property = none) : Inv db (dset lk (tagPrefix ++ t) (.base b)) rank := by
  obtain ⟨hr, h0, hp, ht⟩ := h
  have mono : ∀ N b', Leaf db lk rank N b' → 0 < N →
      Leaf db (dset lk (tagPrefix ++ t) (.base b)) rank N b' := by
    intro N b' hl hN
    unfold Leaf at hl ⊢
    cases hb : b'.byRef with
    | some n =>
      simp only [hb] at hl ⊢
      refine ⟨?_, hl.2⟩
      rw [← dget_isSome, dget_dset]
      split
      · rfl
      · exact dget_isSome.mpr hl.1
    | none =>
      simp only [hb] at hl ⊢
      cases ht' : b'.fromTag with
      | some t' => simp only [h0]; intro _; exact hN
      | none =>
        simp only [ht'] at hl ⊢
        cases hpr : b'.property <;> simp only [hpr] at hl <;> exact hl
  refine ⟨?_, h0, ?_, ?_⟩
  · intro n c hc
    rw [dget_dset] at hc
    split at hc
    · cases hc
      simp [Every, Leaf, h1, h2, h3]
    · by_cases hn : ∃ t', n = tagPrefix ++ t'
      · obtain ⟨t', rfl⟩ := hn
        obtain ⟨b', rfl, e1, e2, e3⟩ := ht t' c hc
        simp [Every, Leaf, e1, e2, e3]
      · exact every_mono (fun b' hb' => mono _ b' hb' (hp n c hc (fun t' e => hn ⟨t', e⟩)))
          (fun _ _ h => h) c (hr n c hc)
  · intro n c hc hn
    rw [dget_dset] at hc
    split at hc
    · rename_i e; exact absurd e.symm (hn t)
    · exact hp n c hc hn
  · intro t' c hc
    rw [dget_dset] at hc
    split at hc
    · cases hc; exact ⟨b, rfl, h1, h2, h3⟩
    · exact ht t' c hc

theorem rank_bound (lk : List (String × Cls)) (rank : String → Nat) :
    ∃ M, ∀ n, n ∈ lk.map Prod.fst → rank n < M := by
  induction lk with
  | nil => exact ⟨0, by simp⟩
  | cons p lk ih =>
    obtain ⟨M, hM⟩ := ih
    refine ⟨max M (rank p.1 + 1), ?_⟩
    intro n hn
    simp only [List.map_cons, List.mem_cons] at hn
    rcases hn with rfl | hn
    · omega
    · have := hM n hn; omega

theorem inv_cls {db : String → Except Err CpSet} {lk : List (String × Cls)} {rank : String → Nat}
    (h : Inv db lk rank) (k : Cls) (n : String) (hk : Proper lk k) (hkn : Every (Known db) (fun _ _ => True) k)
    (hn : n ∉ lk.map Prod.fst) (hnt : ∀ t, n ≠ tagPrefix ++ t) :
    ∃ rank', Inv db (dset lk n k) rank' := by
  obtain ⟨hr, h0, hp, ht⟩ := h
  obtain ⟨M, hM⟩ := rank_bound lk rank
  refine ⟨fun m => if m = n then M + 1 else rank m, ?_, ?_, ?_, ?_⟩
  · have mem : ∀ m, m ∈ lk.map Prod.fst → m ∈ (dset lk n k).map Prod.fst := by
      intro m hm
      rw [← dget_isSome, dget_dset]
      split
      · rfl
      · exact dget_isSome.mpr hm
    intro m c hc
    rw [dget_dset] at hc
    split at hc
    · rename_i e
      subst e
      cases hc
      simp only [if_true]
      have hE : Every (fun b => (∀ n, b.byRef = some n → n ∈ lk.map Prod.fst) ∧ Known db b) Arity k := by
        have h1 := proper_every k hk
        clear hk
        revert h1 hkn
        clear hn hnt mem
        revert k
        refine cls_ind ?_ ?_
        · intro b h1 h2; exact ⟨h2, h1⟩
        · intro n' op cs ih h1 h2
          rw [Every, everyL_iff] at h1 h2 ⊢
          exact ⟨h2.1, fun c hc => ih c hc (h1.2 c hc) (h2.2 c hc)⟩
      refine every_mono ?_ (fun _ _ h => h) k hE
      rintro b ⟨hb1, hb2⟩
      unfold Leaf
      cases hb : b.byRef with
      | some q =>
        have hq := hb1 q hb
        refine ⟨mem q hq, ?_⟩
        have hqn : q ≠ n := fun e => hn (e ▸ hq)
        simp only [if_neg hqn]
        have := hM q hq
        omega
      | none =>
        cases htg : b.fromTag with
        | some t =>
          simp only [if_neg (fun e => hnt t (Eq.symm e) : ¬(tagPrefix ++ t = n)), h0]
          intro _; omega
        | none =>
          cases hpr : b.property with
          | none => trivial
          | some p => exact hb2 p hpr
    · rename_i hne
      simp only [if_neg (fun e => hne (Eq.symm e) : ¬(m = n))]
      refine every_mono ?_ (fun _ _ h => h) c (hr m c hc)
      intro b hb
      unfold Leaf at hb ⊢
      cases hbr : b.byRef with
      | some q =>
        simp only [hbr] at hb ⊢
        refine ⟨mem q hb.1, ?_⟩
        have hqn : q ≠ n := fun e => hn (e ▸ hb.1)
        simp only [if_neg hqn]
        exact hb.2
      | none =>
        simp only [hbr] at hb ⊢
        cases htg : b.fromTag with
        | some t =>
          simp only [htg] at hb ⊢
          simp only [if_neg (fun e => hnt t (Eq.symm e) : ¬(tagPrefix ++ t = n))]
          intro hmem
          apply hb
          rw [← dget_isSome, dget_dset, if_neg (hnt t)] at hmem
          exact dget_isSome.mp hmem
        | none =>
          simp only [htg] at hb ⊢
          cases hpr : b.property <;> simp only [hpr] at hb <;> exact hb
  · intro t
    simp only
    rw [if_neg (fun e => hnt t e.symm)]
    exact h0 t
  · intro m c hc hm
    simp only
    split
    · omega
    · rename_i hne
      rw [dget_dset, if_neg (fun e => hne e.symm)] at hc
      exact hp m c hc hm
  · intro t c hc
    rw [dget_dset, if_neg (hnt t)] at hc
    exact ht t c hc

/-- Definitions made by calls that define no name twice are not circular. -/
theorem fresh_inv {db : String → Except Err CpSet} (cs : List Call) (s : RuleState) (rank : String → Nat)
    (h : Inv db s.lk.classes rank) (hf : Fresh s cs)
    (hkn : ∀ k, Call.cls k ∈ cs → Every (Known db) (fun _ _ => True) k) :
    ∃ rank', Inv db (cs.foldl Call.run s).lk.classes rank' := by
  induction cs generalizing s rank with
  | nil => exact ⟨rank, h⟩
  | cons c cs ih =>
    rw [List.foldl_cons]
    have hkn' : ∀ k, Call.cls k ∈ cs → Every (Known db) (fun _ _ => True) k :=
      fun k hk => hkn k (List.mem_cons_of_mem _ hk)
    cases c with
    | tag cp t =>
      refine ih (Call.run s (.tag cp t)) rank ?_ hf.2 hkn'
      simp only [Call.run, RuleState.addTag]
      cases hd : dget s.lk.classes (tagPrefix ++ t) with
      | none => exact inv_tag h t _ rfl rfl rfl
      | some c =>
        obtain ⟨b, rfl, e1, e2, e3⟩ := h.2.2.2 t c hd
        exact inv_tag h t _ e1 e2 e3
    | untag cp t =>
      refine ih (Call.run s (.untag cp t)) rank ?_ hf.2 hkn'
      simp only [Call.run, RuleState.delTag]
      cases hd : dget s.lk.classes (tagPrefix ++ t) with
      | none => exact h
      | some c =>
        obtain ⟨b, rfl, e1, e2, e3⟩ := h.2.2.2 t c hd
        exact inv_tag h t _ e1 e2 e3
    | cls k =>
      have : ∃ rank', Inv db (Call.run s (.cls k)).lk.classes rank' := by
        simp only [Call.run, RuleState.addClass]
        cases hv : Cls.validate s.lk.classes true k with
        | error e => exact ⟨rank, h⟩
        | ok u =>
          obtain ⟨hname, hprop⟩ := (validate_exact s.lk.classes k true).mp hv
          cases hn : RuleState.clsName k with
          | none => exact ⟨rank, h⟩
          | some n =>
            obtain ⟨hn1, hn2⟩ := hf.1 n hn
            exact inv_cls h k n hprop (hkn k (by simp)) hn1 hn2
      obtain ⟨rank', hr'⟩ := this
      exact ih _ rank' hr' hf.2 hkn'

/-- After any history of tagging, untagging and unforced definitions of new names with known properties,
every named class, and every class accepted by validation, has a set, and it is the one it spells. -/
theorem history_denotes (db : String → Except Err CpSet) (cs : List Call) (hf : Fresh {} cs)
    (hkn : ∀ k, Call.cls k ∈ cs → Every (Known db) (fun _ _ => True) k) :
    ∃ ρ, Solves db (cs.foldl Call.run {}).lk.classes ρ ∧
      ∀ k, (∃ top, Cls.validate (cs.foldl Call.run {}).lk.classes top k = .ok ()) →
        Every (Known db) (fun _ _ => True) k →
        ∃ fuel s, (∀ fuel', fuel ≤ fuel' → getSet db (cs.foldl Call.run {}).lk.classes fuel' k = .ok s) ∧
          ∀ x, s x = true ↔ Den db ρ k x := by
  obtain ⟨rank, hI⟩ := fresh_inv (db := db) cs {} (fun _ => 0)
    ⟨by intro n c hc; simp [dget] at hc, fun _ => rfl, by intro n c hc; simp [dget] at hc,
      by intro n c hc; simp [dget] at hc⟩ hf hkn
  generalize (cs.foldl Call.run {}).lk.classes = lk at *
  obtain ⟨ρ, hρ, hall⟩ := classes_denote hI.1
  refine ⟨ρ, hρ, ?_⟩
  rintro k ⟨top, hv⟩ hkk
  obtain ⟨M, hM⟩ := rank_bound lk rank
  refine hall (M + 1) k ?_
  have hp := proper_every k ((validate_exact lk k top).mp hv).2
  clear hv
  revert hp hkk
  revert k
  refine cls_ind ?_ ?_
  · intro b h2 h1
    rw [Every] at h1 h2 ⊢
    unfold Leaf
    cases hb : b.byRef with
    | some q =>
      have hq := h1 q hb
      have := hM q hq
      exact ⟨hq, by omega⟩
    | none =>
      cases htg : b.fromTag with
      | some t =>
        simp only [hI.2.1 t]
        intro _; omega
      | none =>
        cases hpr : b.property with
        | none => trivial
        | some p => exact h2 p hpr
  · intro n op cs ih h1 h2
    rw [Every, everyL_iff] at h1 h2 ⊢
    exact ⟨h2.1, fun c hc => ih c hc (h1.2 c hc) (h2.2 c hc)⟩

/-- The code points which are tagged after the calls, latest first: those given a tag and not untagged since.
A sequence tags all its code points. -/
def Tagged : List Call → String → Nat → Prop
  | [], _, _ => False
  | .tag cp t' :: l, t, x => (t' = t ∧ x ∈ cp) ∨ Tagged l t x
  | .untag cp t' :: l, t, x => Tagged l t x ∧ ¬ (t' = t ∧ x ∈ cp)
  | .cls _ :: l, t, x => Tagged l t x

/-- The class of a tag has the code points `P`. -/
def TagSet (lk : List (String × Cls)) (t : String) (P : Nat → Prop) : Prop :=
  (dget lk (tagPrefix ++ t) = none ∧ ∀ x, ¬ P x) ∨
  ∃ b : BaseCls, dget lk (tagPrefix ++ t) = some (.base b) ∧ b.byRef = none ∧ b.fromTag = none ∧ b.property = none ∧
    ∀ x, x ∈ b.codepoints ↔ P x

theorem tag_inj {t t' : String} (h : tagPrefix ++ t = tagPrefix ++ t') : t = t' := by
  have := congrArg String.toList h
  rw [String.toList_append, String.toList_append] at this
  exact String.toList_inj.mp (List.append_cancel_left this)

theorem tagSet_run (s : RuleState) (c : Call) (hf : Fresh s [c]) (l : List Call)
    (h : ∀ t, TagSet s.lk.classes t (Tagged l t)) (t : String) :
    TagSet (c.run s).lk.classes t (Tagged (c :: l) t) := by
  cases c with
  | cls k =>
    have key : ∀ lk', (∀ n, RuleState.clsName k = some n → lk' = dset s.lk.classes n k) →
        (RuleState.clsName k = none → lk' = s.lk.classes) → TagSet lk' t (Tagged l t) := by
      intro lk' h1 h2
      cases hn : RuleState.clsName k with
      | none => rw [h2 hn]; exact h t
      | some n =>
        rw [h1 n hn]
        have hne := (hf.1 n hn).2 t
        have : dget (dset s.lk.classes n k) (tagPrefix ++ t) = dget s.lk.classes (tagPrefix ++ t) := by
          rw [dget_dset, if_neg hne]
        unfold TagSet
        rw [this]
        exact h t
    show TagSet (RuleState.addClass s k false).1.lk.classes t (Tagged l t)
    unfold RuleState.addClass
    cases hv : Cls.validate s.lk.classes true k with
    | error e => exact h t
    | ok u =>
      cases hn : RuleState.clsName k with
      | none => exact h t
      | some n =>
        simp only
        exact key _ (fun n' hn' => by rw [hn] at hn'; cases hn'; rfl) (fun hc => by rw [hn] at hc; cases hc)
  | tag cp t' =>
    show TagSet (RuleState.addTag s cp t').lk.classes t (fun x => (t' = t ∧ x ∈ cp) ∨ Tagged l t x)
    by_cases ht : t' = t
    · subst ht
      rcases h t' with ⟨h1, h2⟩ | ⟨b, h1, h3, h4, h5, h6⟩
      · unfold RuleState.addTag
        simp only [h1]
        refine .inr ⟨_, by rw [dget_dset, if_pos rfl], rfl, rfl, rfl, ?_⟩
        intro x
        simp [h2 x]
      · unfold RuleState.addTag
        simp only [h1]
        refine .inr ⟨{ b with codepoints := b.codepoints ++ cp }, by rw [dget_dset, if_pos rfl], h3, h4, h5, ?_⟩
        intro x
        simp [h6 x, or_comm]
    · have hne : ¬ tagPrefix ++ t' = tagPrefix ++ t := fun e => ht (tag_inj e)
      have e : dget (RuleState.addTag s cp t').lk.classes (tagPrefix ++ t) = dget s.lk.classes (tagPrefix ++ t) := by
        unfold RuleState.addTag
        simp only
        split
        · rw [dget_dset, if_neg hne]
        · rw [dget_dset, if_neg hne]
        · rfl
      unfold TagSet
      rw [e]
      simpa [ht, TagSet] using h t
  | untag cp t' =>
    show TagSet (RuleState.delTag s cp t').lk.classes t (fun x => Tagged l t x ∧ ¬ (t' = t ∧ x ∈ cp))
    by_cases ht : t' = t
    · subst ht
      rcases h t' with ⟨h1, h2⟩ | ⟨b, h1, h3, h4, h5, h6⟩
      · unfold RuleState.delTag
        simp only [h1]
        exact .inl ⟨h1, fun x hx => h2 x hx.1⟩
      · unfold RuleState.delTag
        simp only [h1]
        refine .inr ⟨{ b with codepoints := b.codepoints.filter (fun c => decide (c ∉ cp)) },
          by rw [dget_dset, if_pos rfl], h3, h4, h5, ?_⟩
        intro x
        simp [h6 x]
    · have hne : ¬ tagPrefix ++ t' = tagPrefix ++ t := fun e => ht (tag_inj e)
      have e : dget (RuleState.delTag s cp t').lk.classes (tagPrefix ++ t) = dget s.lk.classes (tagPrefix ++ t) := by
        unfold RuleState.delTag
        simp only
        split
        · rw [dget_dset, if_neg hne]
        · rfl
      unfold TagSet
      rw [e]
      simpa [ht, TagSet] using h t

/-- After any history that defines no name twice the class of a tag is what was tagged and not untagged since. -/
theorem history_tags_exact (db : String → Except Err CpSet) (cs : List Call) (hf : Fresh {} cs) (t : String) :
    ∃ s, (∀ fuel, 2 ≤ fuel →
        getSet db (cs.foldl Call.run {}).lk.classes fuel (.base { fromTag := some t }) = .ok s) ∧
      ∀ x, s x = true ↔ Tagged cs.reverse t x := by
  have key : ∀ (cs : List Call) (s : RuleState) (l : List Call), Fresh s cs →
      (∀ t, TagSet s.lk.classes t (Tagged l t)) →
      ∀ t, TagSet (cs.foldl Call.run s).lk.classes t (Tagged (cs.reverse ++ l) t) := by
    intro cs
    induction cs with
    | nil => intro s l _ h t; exact h t
    | cons c cs ih =>
      intro s l hf h t
      rw [List.reverse_cons, List.append_assoc]
      exact ih (c.run s) (c :: l) hf.2 (tagSet_run s c ⟨hf.1, trivial⟩ l h) t
  have h := key cs {} [] hf (fun t => .inl ⟨rfl, fun x hx => hx⟩) t
  rw [List.append_nil] at h
  rcases h with ⟨h1, h2⟩ | ⟨b, h1, h3, h4, h5, h6⟩
  · refine ⟨fun _ => false, ?_, fun x => by simp [h2 x]⟩
    intro fuel hle
    obtain ⟨f, rfl⟩ : ∃ f, fuel = f + 1 := ⟨fuel - 1, by omega⟩
    rw [getSet]
    simp only [h1]
  · refine ⟨fun c => decide (c ∈ b.codepoints), ?_, fun x => by simp [h6 x]⟩
    intro fuel hle
    obtain ⟨f, rfl⟩ : ∃ f, fuel = f + 2 := ⟨fuel - 2, by omega⟩
    rw [getSet]
    simp only [h1]
    rw [getSet]
    simp only [h3, h4, h5]

/-! ## A violation, and examples -/

/-- No properties. -/
def noDb : String → Except Err CpSet := fun _ => .error .valueError

def clsA : Cls := .base { name := some "a", codepoints := [0x61] }
def refTo (n : String) : Cls := .base { byRef := some n }
def clsB : Cls := .comb (some "b") .union [refTo "a", refTo "a"]
def clsA' : Cls := .comb (some "a") .union [refTo "b", refTo "b"]

/-- All three definitions are accepted; the last one makes the first and the second circular. -/
def loop : RuleState := [Call.cls clsA, .cls clsB, .cls clsA'].foldl Call.run {}

/-- A name can be redefined so that its class has no set: evaluation never ends (`RecursionError`). -/
theorem redefinition_breaks :
    (RuleState.addClass {} clsA false).2 = .ok () ∧
    (RuleState.addClass (RuleState.addClass {} clsA false).1 clsB false).2 = .ok () ∧
    (RuleState.addClass (RuleState.addClass (RuleState.addClass {} clsA false).1 clsB false).1 clsA' false).2
      = .ok () ∧
    ∀ db fuel, getSet db loop.lk.classes fuel clsB = .error .recursionError := by
  have e : loop.lk.classes = [("a", clsA'), ("b", clsB)] := rfl
  refine ⟨rfl, rfl, rfl, ?_⟩
  intro db fuel
  rw [e]
  have : ∀ fuel, getSet db [("a", clsA'), ("b", clsB)] fuel clsB = .error .recursionError ∧
      getSet db [("a", clsA'), ("b", clsB)] fuel clsA' = .error .recursionError ∧
      getSet db [("a", clsA'), ("b", clsB)] fuel (refTo "a") = .error .recursionError ∧
      getSet db [("a", clsA'), ("b", clsB)] fuel (refTo "b") = .error .recursionError := by
    intro fuel
    induction fuel with
    | zero => exact ⟨rfl, rfl, rfl, rfl⟩
    | succ f ih =>
      obtain ⟨h1, h2, h3, h4⟩ := ih
      refine ⟨?_, ?_, ?_, ?_⟩
      · show getSet db [("a", clsA'), ("b", clsB)] (f + 1) (.comb (some "b") .union [refTo "a", refTo "a"]) = _
        rw [getSet]
        simp only [List.mapM_cons, h3]
        rfl
      · show getSet db [("a", clsA'), ("b", clsB)] (f + 1) (.comb (some "a") .union [refTo "b", refTo "b"]) = _
        rw [getSet]
        simp only [List.mapM_cons, h4]
        rfl
      · exact h2
      · exact h1
  exact (this fuel).1

/-- The hypotheses of `history_denotes` are met by a history with all combinators. -/
def demo : List Call :=
  [.tag [0x61] "t", .tag [0x62, 0x63] "t", .cls clsA, .cls clsB,
   .cls (.comb (some "d") .difference [.base { fromTag := some "t" }, refTo "b"]),
   .cls (.comb (some "e") .symDiff [.comb none .complement [refTo "d"], .comb none .intersection [refTo "a", refTo "b"]])]

theorem tag_first (t : String) : (tagPrefix ++ t).toList.head? = some '#' := by
  rw [String.toList_append]
  rfl

theorem ne_tag {n : String} (h : n.toList.head? ≠ some '#') (t : String) : n ≠ tagPrefix ++ t := by
  rintro rfl
  exact h (tag_first t)

theorem demo_ok : Fresh {} demo ∧ (∀ k, Call.cls k ∈ demo → Every (Known noDb) (fun _ _ => True) k) := by
  constructor
  · refine ⟨trivial, trivial, ?_, ?_, ?_, ?_, trivial⟩
    all_goals
      rintro n ⟨⟩
      exact ⟨by decide +kernel, ne_tag (by decide)⟩
  · intro k hk
    simp only [demo, List.mem_cons, Call.cls.injEq, reduceCtorEq, List.not_mem_nil, false_or, or_false] at hk
    rcases hk with rfl | rfl | rfl | rfl <;> simp [clsA, clsB, refTo, Every, EveryL, Known]

/-- And the set of `d` is as one expects. -/
example : ∃ s, getSet noDb (demo.foldl Call.run {}).lk.classes 9 (refTo "d") = .ok s ∧
    s 0x61 = false ∧ s 0x62 = true ∧ s 0x63 = true ∧ s 0x64 = false := ⟨_, rfl, rfl, rfl, rfl, rfl⟩

end Lgr.C42

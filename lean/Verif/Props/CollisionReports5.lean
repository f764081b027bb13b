import Verif.Props.CollisionReports4

/-!
# C114: `diff`
-/

namespace Lgr.Props.C114
open Lgr Collisions LabelInput C32 C112 C113

/-! ## Specification -/

/-- The label is in both LGRs. -/
def InBoth (index1 index2 : Seq → Except Err Seq) (rs : List Read) (l : Seq) : Prop :=
  Input rs l ∧ (∃ k, index1 l = .ok k) ∧ ∃ k, index2 l = .ok k

/-- How `x` is called below the label `l`. -/
def Called (index : Seq → Except Err Seq) (isLabel : Seq → Prop) (l x : Seq) (c : Cat) : Prop :=
  (c = .primary ∧ isLabel x ∧ Same index l x) ∨ (c = .variant ∧ ¬ (isLabel x ∧ Same index l x))

/-- The disposition of `x` below `l` is different. -/
def Changed (dispo1 dispo2 : Dispo) (quiet : Bool) (l x : Seq) (i1 i2 : Info) : Prop :=
  (x, i1) ∈ computed dispo1 quiet l ∧ (x, i2) ∈ computed dispo2 quiet l ∧ i1.disp ≠ i2.disp

/-- `x` is a variant of `l` in the second LGR only. -/
def New (dispo1 dispo2 : Dispo) (quiet : Bool) (l x : Seq) : Prop :=
  x ∈ (computed dispo2 quiet l).map Prod.fst ∧ x ∉ (computed dispo1 quiet l).map Prod.fst

/-- The lines of the comparison. -/
structure Compared (index1 index2 : Seq → Except Err Seq) (dispo1 dispo2 : Dispo) (quiet : Bool)
    (isLabel both : Seq → Prop) (out : List Line) : Prop where
  /-- The labels of both LGRs are compared. -/
  comparison : ∀ l, .comparison l ∈ out ↔ both l
  /-- Exactly the variants in both LGRs with different dispositions are listed. -/
  change : ∀ l c x s2 s1 rules, .change l c x s2 s1 rules ∈ out ↔ both l ∧ Called index2 isLabel l x c ∧
    ∃ i1 i2, Changed dispo1 dispo2 quiet l x i1 i2 ∧ i2.disp = s2 ∧ i1.disp = s1 ∧
      rules = (if c = .primary then none else some ((mask quiet i2).rules, (mask quiet i1).rules))
  noChange : ∀ l, .noChange l ∈ out ↔ both l ∧ ∀ x i1 i2, ¬ Changed dispo1 dispo2 quiet l x i1 i2
  /-- Exactly the variants of one LGR only are listed as added and removed. -/
  added : ∀ l c x, .added l c x ∈ out ↔ both l ∧ Called index2 isLabel l x c ∧ New dispo1 dispo2 quiet l x
  addedRules : ∀ l s, .addedRules l s ∈ out ↔ both l ∧
    ∃ x i, New dispo1 dispo2 quiet l x ∧ (x, i) ∈ computed dispo2 quiet l ∧ (mask quiet i).rules = s
  removed : ∀ l c x, .removed l c x ∈ out ↔ both l ∧ Called index1 isLabel l x c ∧ New dispo2 dispo1 quiet l x
  removedRules : ∀ l s, .removedRules l s ∈ out ↔ both l ∧
    ∃ x i, New dispo2 dispo1 quiet l x ∧ (x, i) ∈ computed dispo1 quiet l ∧ (mask quiet i).rules = s
  sameVariants : ∀ l, .sameVariants l ∈ out ↔ both l ∧
    ∀ x, x ∈ (computed dispo1 quiet l).map Prod.fst ↔ x ∈ (computed dispo2 quiet l).map Prod.fst

/-- All that is computed for the labels with the index of `l` is computed for `l`. -/
def MutualFor (index : Seq → Except Err Seq) (dispo : Dispo) (quiet : Bool) (isLabel : Seq → Prop) (l : Seq) : Prop :=
  ∀ q, isLabel q → Same index l q →
    ∀ x ∈ (computed dispo quiet q).map Prod.fst, x ∈ (computed dispo quiet l).map Prod.fst

/-! ## Reports that may fail -/

theorem next_ok_iff {a b : Report} : (a.next b).2 = .ok () ↔ a.2 = .ok () ∧ b.2 = .ok () := by
  unfold Report.next
  rcases h : a.2 with e | u
  · simp
  · simp

/-- It returns or raises `InvalidSymmetry`. -/
def Sym (a : Report) : Prop := a.2 = .ok () ∨ a.2 = .error .invalidSymmetry

theorem Sym.next {a b : Report} (ha : Sym a) (hb : Sym b) : Sym (a.next b) := by
  unfold Sym Report.next
  rcases ha with ha | ha
  · rw [ha]; exact hb
  · rw [ha]; exact .inr rfl

theorem Sym.each {α : Type} {f : α → Report} : ∀ {l : List α}, (∀ a ∈ l, Sym (f a)) → Sym (eachR f l)
  | [], _ => .inl rfl
  | a :: l, h => (h a (by simp)).next (Sym.each (fun b hb => h b (by simp [hb])))

theorem Sym.say (ls : List Line) : Sym (say ls) := .inl rfl

theorem Sym.error {a : Report} (h : Sym a) (hn : a.2 ≠ .ok ()) : a.2 = .error .invalidSymmetry := h.resolve_left hn

/-! ## One label -/

theorem changeOf_sym (l : Seq) (p : Entry × Entry) : Sym (changeOf l p) := by
  unfold changeOf compareLabels
  split
  · rename_i h
    split at h
    · split_ifs at h
    · cases h; exact .inr rfl
  · exact .inl rfl

theorem changeOf_ok_iff {l : Seq} {p : Entry × Entry} : (changeOf l p).2 = .ok () ↔
    (dget p.1.info l).isSome = true ∧ (dget p.2.info l).isSome = true := by
  unfold changeOf compareLabels
  rcases h1 : dget p.1.info l with _ | i1
  · simp
  · rcases h2 : dget p.2.info l with _ | i2
    · simp
    · simp only [Option.isSome_some, and_self, iff_true]
      split
      · rename_i h
        split_ifs at h
      · rfl

theorem changeOf_mem {l : Seq} {p : Entry × Entry} {o : Line} : o ∈ (changeOf l p).1 ↔
    ∃ i1 i2, dget p.1.info l = some i1 ∧ dget p.2.info l = some i2 ∧ i1.disp ≠ i2.disp ∧
      o = .change l p.2.cat p.2.cp i2.disp i1.disp
        (if p.2.cat = .primary then none else some (i2.rules, i1.rules)) := by
  unfold changeOf compareLabels
  rcases h1 : dget p.1.info l with _ | i1
  · simp
  · rcases h2 : dget p.2.info l with _ | i2
    · simp
    · by_cases hd : i1.disp = i2.disp
      · simp [hd, say]
      · by_cases hc : p.2.cat = .primary
        · simp only [hd, hc, if_true, if_false, say, Option.toList_some, List.mem_singleton]
          constructor
          · rintro rfl; exact ⟨i1, i2, rfl, rfl, hd, rfl⟩
          · rintro ⟨_, _, h3, h4, -, h5⟩
            cases h3; cases h4; exact h5
        · simp only [hd, hc, if_false, say, Option.toList_some, List.mem_singleton]
          constructor
          · rintro rfl; exact ⟨i1, i2, rfl, rfl, hd, rfl⟩
          · rintro ⟨_, _, h3, h4, -, h5⟩
            cases h3; cases h4; exact h5

theorem variantLines_sym (l : Seq) (head : Cat → Seq → Line) (rules : String → Line) (e : Entry) :
    Sym (variantLines l head rules e) := by
  unfold variantLines
  refine (Sym.say _).next ?_
  split
  · exact .inl rfl
  · exact .inr rfl

theorem variantLines_ok_iff {l : Seq} {head : Cat → Seq → Line} {rules : String → Line} {e : Entry} :
    (variantLines l head rules e).2 = .ok () ↔ (dget e.info l).isSome = true := by
  unfold variantLines
  rw [next_ok_iff]
  rcases h : dget e.info l with _ | i <;> simp [say]

theorem variantLines_mem {l : Seq} {head : Cat → Seq → Line} {rules : String → Line} {e : Entry} {o : Line} :
    o ∈ (variantLines l head rules e).1 ↔ o = head e.cat e.cp ∨ ∃ i, dget e.info l = some i ∧ o = rules i.rules := by
  unfold variantLines
  rw [say_next]
  rcases h : dget e.info l with _ | i <;> simp [say]

theorem eachR_mem_ok {α : Type} {f : α → Report} {l : List α} (h : (eachR f l).2 = .ok ()) {o : Line} :
    o ∈ (eachR f l).1 ↔ ∃ a ∈ l, o ∈ (f a).1 := by
  rw [eachR_ok (eachR_ok_iff.1 h), List.mem_flatMap]

theorem next_mem_ok {a b : Report} (h : a.2 = .ok ()) {o : Line} : o ∈ (a.next b).1 ↔ o ∈ a.1 ∨ o ∈ b.1 := by
  rw [next_ok h, List.mem_append]

theorem mem_samePairs {es1 es2 : List Entry} {p : Entry × Entry} :
    p ∈ samePairs es1 es2 ↔ p.1 ∈ es1 ∧ p.2 ∈ es2 ∧ p.1.cp = p.2.cp := by
  unfold samePairs
  simp only [List.mem_flatMap, List.mem_map, List.mem_filter, decide_eq_true_eq]
  constructor
  · rintro ⟨e2, h2, e1, ⟨h1, h3⟩, rfl⟩; exact ⟨h1, h2, h3⟩
  · rintro ⟨h1, h2, h3⟩; exact ⟨p.2, h2, p.1, ⟨h1, h3⟩, rfl⟩

theorem mem_newVariants {new old : List Entry} {e : Entry} :
    e ∈ newVariants new old ↔ e ∈ new ∧ e.cp ∉ old.map Entry.cp := by
  unfold newVariants
  rw [List.mem_filter, decide_eq_true_eq]

theorem compareOne_sym (l : Seq) (es1 es2 : List Entry) : Sym (compareOne l es1 es2) := by
  unfold compareOne changes
  dsimp only
  exact ((Sym.say _).next (Sym.each (fun p _ => changeOf_sym l p))).next
    ((Sym.say _).next ((Sym.each (fun e _ => variantLines_sym l _ _ e)).next
      ((Sym.each (fun e _ => variantLines_sym l _ _ e)).next (Sym.say _))))

theorem compareOne_ok_iff {l : Seq} {es1 es2 : List Entry} : (compareOne l es1 es2).2 = .ok () ↔
    (∀ e ∈ es1, (dget e.info l).isSome = true) ∧ ∀ e ∈ es2, (dget e.info l).isSome = true := by
  unfold compareOne changes
  dsimp only
  simp only [next_ok_iff, eachR_ok_iff, changeOf_ok_iff, variantLines_ok_iff, say, true_and, and_true, mem_samePairs,
    mem_newVariants]
  constructor
  · rintro ⟨h1, h2, h3⟩
    constructor
    · intro e he
      by_cases hm : e.cp ∈ es2.map Entry.cp
      · obtain ⟨e2, he2, h4⟩ := List.mem_map.1 hm
        exact (h1 (e, e2) ⟨he, he2, h4.symm⟩).1
      · exact h3 e ⟨he, hm⟩
    · intro e he
      by_cases hm : e.cp ∈ es1.map Entry.cp
      · obtain ⟨e1, he1, h4⟩ := List.mem_map.1 hm
        exact (h1 (e1, e) ⟨he1, he, h4⟩).2
      · exact h2 e ⟨he, hm⟩
  · rintro ⟨h1, h2⟩
    exact ⟨fun p hp => ⟨h1 _ hp.1, h2 _ hp.2.1⟩, fun e he => h2 e he.1, fun e he => h1 e he.1⟩

theorem compareOne_mem {l : Seq} {es1 es2 : List Entry} (h : (compareOne l es1 es2).2 = .ok ()) {o : Line} :
    o ∈ (compareOne l es1 es2).1 ↔ o = .comparison l ∨ (∃ p ∈ samePairs es1 es2, o ∈ (changeOf l p).1) ∨
      (o = .noChange l ∧ ∀ p ∈ samePairs es1 es2, (changeOf l p).1 = []) ∨
      (∃ e ∈ newVariants es2 es1, o ∈ (variantLines l (.added l) (.addedRules l) e).1) ∨
      (∃ e ∈ newVariants es1 es2, o ∈ (variantLines l (.removed l) (.removedRules l) e).1) ∨
      (o = .sameVariants l ∧ newVariants es2 es1 = [] ∧ newVariants es1 es2 = []) := by
  unfold compareOne changes at h ⊢
  dsimp only at h ⊢
  rw [next_ok_iff, next_ok_iff, next_ok_iff, next_ok_iff, next_ok_iff] at h
  obtain ⟨⟨h0, h1⟩, h2, h3, h4, h5⟩ := h
  have hch : (eachR (changeOf l) (samePairs es1 es2)).1 = [] ↔ ∀ p ∈ samePairs es1 es2, (changeOf l p).1 = [] := by
    rw [eachR_ok (eachR_ok_iff.1 h1)]
    simp only [List.flatMap_eq_nil_iff]
  rw [next_mem_ok (next_ok_iff.2 ⟨h0, h1⟩), next_mem_ok h0, next_mem_ok h2, next_mem_ok h3, next_mem_ok h4,
    eachR_mem_ok h1, eachR_mem_ok h3, eachR_mem_ok h4]
  have e1 : o ∈ (say (if (eachR (changeOf l) (samePairs es1 es2)).1 = [] then [Line.noChange l] else [])).1 ↔
      o = .noChange l ∧ ∀ p ∈ samePairs es1 es2, (changeOf l p).1 = [] := by
    rw [← hch]
    split
    · rename_i h; simp [say, h]
    · rename_i h; simp [say, h]
  have e2 : o ∈ (say (if (newVariants es2 es1).length = 0 ∧ (newVariants es1 es2).length = 0 then
      [Line.sameVariants l] else [])).1 ↔ o = .sameVariants l ∧ newVariants es2 es1 = [] ∧ newVariants es1 es2 = [] := by
    rw [← List.length_eq_zero_iff (l := newVariants es2 es1), ← List.length_eq_zero_iff (l := newVariants es1 es2)]
    split
    · rename_i h; simp [say, h]
    · rename_i h
      simp only [say, List.not_mem_nil, false_iff, not_and]
      exact fun _ h1 h2 => h ⟨h1, h2⟩
  rw [e1, e2]
  simp only [say, List.mem_singleton, or_assoc]

/-! ## The groups -/

/-- What is known of the group of a label. -/
structure Grp (index : Seq → Except Err Seq) (dispo : Dispo) (quiet : Bool) (isLabel : Seq → Prop) (l : Seq)
    (es : List Entry) : Prop where
  once : ((computed dispo quiet l).map Prod.fst).Nodup
  cps : ∀ x, x ∈ es.map Entry.cp ↔ x ∈ (computed dispo quiet l).map Prod.fst
  info : ∀ e ∈ es, dget e.info l = (dget (computed dispo quiet l) e.cp).map (mask quiet)
  cat : ∀ e ∈ es, Called index isLabel l e.cp e.cat

theorem called_unique {index : Seq → Except Err Seq} {isLabel : Seq → Prop} {l x : Seq} {c c' : Cat}
    (h : Called index isLabel l x c) (h' : Called index isLabel l x c') : c = c' := by
  rcases h with h | h <;> rcases h' with h' | h'
  · rw [h.1, h'.1]
  · exact absurd h.2 h'.2
  · exact absurd h'.2 h.2
  · rw [h.1, h'.1]

theorem Grp.some_iff {index : Seq → Except Err Seq} {dispo : Dispo} {quiet : Bool} {isLabel : Seq → Prop} {l : Seq}
    {es : List Entry} (h : Grp index dispo quiet isLabel l es) {e : Entry} (he : e ∈ es) {i : Info} :
    dget e.info l = some i ↔ ∃ j, (e.cp, j) ∈ computed dispo quiet l ∧ mask quiet j = i := by
  rw [h.info e he, Option.map_eq_some_iff]
  constructor
  · rintro ⟨j, h1, h2⟩; exact ⟨j, mem_of_dget h1, h2⟩
  · rintro ⟨j, h1, h2⟩; exact ⟨j, dget_of_mem h.once h1, h2⟩

theorem Grp.entry {index : Seq → Except Err Seq} {dispo : Dispo} {quiet : Bool} {isLabel : Seq → Prop} {l : Seq}
    {es : List Entry} (h : Grp index dispo quiet isLabel l es) {x : Seq}
    (hx : x ∈ (computed dispo quiet l).map Prod.fst) : ∃ e ∈ es, e.cp = x := List.mem_map.1 ((h.cps x).2 hx)

theorem compareOne_compared {index1 index2 : Seq → Except Err Seq} {dispo1 dispo2 : Dispo} {quiet : Bool}
    {isLabel : Seq → Prop} {l : Seq} {es1 es2 : List Entry} (h : (compareOne l es1 es2).2 = .ok ())
    (h1 : Grp index1 dispo1 quiet isLabel l es1) (h2 : Grp index2 dispo2 quiet isLabel l es2) :
    Compared index1 index2 dispo1 dispo2 quiet isLabel (· = l) (compareOne l es1 es2).1 := by
  have hnew : ∀ {index : Seq → Except Err Seq} {dispo dispo' : Dispo} {new old : List Entry}
      {index' : Seq → Except Err Seq}, Grp index dispo quiet isLabel l new → Grp index' dispo' quiet isLabel l old →
      ∀ x, (∃ e ∈ newVariants new old, e.cp = x) ↔ New dispo' dispo quiet l x := by
    intro index dispo dispo' new old index' g g' x
    unfold New
    rw [← g.cps, ← g'.cps]
    simp only [mem_newVariants]
    constructor
    · rintro ⟨e, ⟨h1, h2⟩, rfl⟩; exact ⟨List.mem_map.2 ⟨e, h1, rfl⟩, h2⟩
    · rintro ⟨h1, h2⟩
      obtain ⟨e, he, rfl⟩ := List.mem_map.1 h1
      exact ⟨e, ⟨he, h2⟩, rfl⟩
  have hchg : ∀ l' c x s2 s1 rules, (∃ p ∈ samePairs es1 es2, Line.change l' c x s2 s1 rules ∈ (changeOf l p).1) ↔
      l' = l ∧ Called index2 isLabel l x c ∧ ∃ i1 i2, Changed dispo1 dispo2 quiet l x i1 i2 ∧ i2.disp = s2 ∧
        i1.disp = s1 ∧ rules = (if c = .primary then none else some ((mask quiet i2).rules, (mask quiet i1).rules)) := by
    intro l' c x s2 s1 rules
    constructor
    · rintro ⟨⟨e1, e2⟩, hp, ho⟩
      obtain ⟨m1, m2, m3⟩ := mem_samePairs.1 hp
      obtain ⟨i1, i2, k1, k2, k3, k4⟩ := changeOf_mem.1 ho
      simp only [Line.change.injEq] at k4
      obtain ⟨rfl, rfl, rfl, rfl, rfl, rfl⟩ := k4
      obtain ⟨j1, n1, rfl⟩ := (h1.some_iff m1).1 k1
      obtain ⟨j2, n2, rfl⟩ := (h2.some_iff m2).1 k2
      refine ⟨rfl, h2.cat e2 m2, j1, j2, ⟨?_, n2, k3⟩, rfl, rfl, rfl⟩
      have : e1.cp = e2.cp := m3
      rw [← this]; exact n1
    · rintro ⟨rfl, hc, j1, j2, ⟨n1, n2, n3⟩, rfl, rfl, rfl⟩
      obtain ⟨e1, m1, rfl⟩ := h1.entry (List.mem_map.2 ⟨_, n1, rfl⟩)
      obtain ⟨e2, m2, m3⟩ := h2.entry (List.mem_map.2 ⟨_, n2, rfl⟩)
      refine ⟨(e1, e2), mem_samePairs.2 ⟨m1, m2, m3.symm⟩, changeOf_mem.2 ⟨mask quiet j1, mask quiet j2,
        (h1.some_iff m1).2 ⟨j1, n1, rfl⟩, (h2.some_iff m2).2 ⟨j2, by rw [m3]; exact n2, rfl⟩, n3, ?_⟩⟩
      have hcat := h2.cat e2 m2
      rw [m3] at hcat
      have := called_unique hcat hc
      simp only [Line.change.injEq, this, m3, and_self, true_and]
      exact ⟨rfl, rfl, trivial⟩
  have hno : (∀ p ∈ samePairs es1 es2, (changeOf l p).1 = []) ↔
      ∀ x i1 i2, ¬ Changed dispo1 dispo2 quiet l x i1 i2 := by
    constructor
    · intro hp x i1 i2 hc
      obtain ⟨e2, m2, m3⟩ := h2.entry (List.mem_map.2 ⟨_, hc.2.1, rfl⟩)
      have hcat := h2.cat e2 m2
      have m3 : e2.cp = x := m3
      obtain ⟨p, hp1, hp2⟩ := (hchg l e2.cat x _ _ _).2 ⟨rfl, by rw [← m3]; exact hcat, i1, i2, hc, rfl, rfl, rfl⟩
      rw [hp p hp1] at hp2
      simp at hp2
    · intro hx p hp
      rw [List.eq_nil_iff_forall_not_mem]
      intro o hO
      obtain ⟨i1, i2, k1, k2, k3, rfl⟩ := changeOf_mem.1 hO
      obtain ⟨-, -, j1, j2, hc, -⟩ := (hchg _ _ _ _ _ _).1 ⟨p, hp, hO⟩
      exact hx _ _ _ hc
  have hkind : ∀ {o : Line}, (∃ p ∈ samePairs es1 es2, o ∈ (changeOf l p).1) →
      ∃ c x s2 s1 rules, o = .change l c x s2 s1 rules := by
    rintro o ⟨p, -, ho⟩
    obtain ⟨i1, i2, -, -, -, rfl⟩ := changeOf_mem.1 ho
    exact ⟨_, _, _, _, _, rfl⟩
  have hnil : ∀ {new old : List Entry}, newVariants new old = [] ↔ ¬ ∃ x, ∃ e ∈ newVariants new old, e.cp = x := by
    intro new old
    rw [List.eq_nil_iff_forall_not_mem]
    constructor
    · rintro h ⟨x, e, he, -⟩; exact h e he
    · intro h e he; exact h ⟨_, e, he, rfl⟩
  have hlines : ∀ {index : Seq → Except Err Seq} {dispo dispo' : Dispo} {new old : List Entry}
      {index' : Seq → Except Err Seq} (head : Cat → Seq → Line) (rules : String → Line) (o : Line),
      Grp index dispo quiet isLabel l new → Grp index' dispo' quiet isLabel l old →
      ((∃ e ∈ newVariants new old, o ∈ (variantLines l head rules e).1) ↔
        (∃ c x, o = head c x ∧ Called index isLabel l x c ∧ New dispo' dispo quiet l x) ∨
        ∃ x i, o = rules (mask quiet i).rules ∧ New dispo' dispo quiet l x ∧ (x, i) ∈ computed dispo quiet l) := by
    intro index dispo dispo' new old index' head rules o g g'
    simp only [variantLines_mem]
    constructor
    · rintro ⟨e, he, rfl | ⟨i, hi, rfl⟩⟩
      · exact .inl ⟨e.cat, e.cp, rfl, g.cat e (mem_newVariants.1 he).1, (hnew g g' _).1 ⟨e, he, rfl⟩⟩
      · obtain ⟨j, hj, rfl⟩ := (g.some_iff (mem_newVariants.1 he).1).1 hi
        exact .inr ⟨e.cp, j, rfl, (hnew g g' _).1 ⟨e, he, rfl⟩, hj⟩
    · rintro (⟨c, x, rfl, hc, hn⟩ | ⟨x, i, rfl, hn, hi⟩)
      · obtain ⟨e, he, rfl⟩ := (hnew g g' x).2 hn
        exact ⟨e, he, .inl (by rw [called_unique hc (g.cat e (mem_newVariants.1 he).1)])⟩
      · obtain ⟨e, he, rfl⟩ := (hnew g g' x).2 hn
        exact ⟨e, he, .inr ⟨_, (g.some_iff (mem_newVariants.1 he).1).2 ⟨i, hi, rfl⟩, rfl⟩⟩
  have hall := fun o : Line => (compareOne_mem h (o := o)).trans (or_congr Iff.rfl (or_congr Iff.rfl (or_congr
    (and_congr Iff.rfl hno) (or_congr (hlines (.added l) (.addedRules l) o h2 h1)
      (or_congr (hlines (.removed l) (.removedRules l) o h1 h2) Iff.rfl)))))
  refine ⟨fun m => ?_, fun m c x s2 s1 rules => ?_, fun m => ?_, fun m c x => ?_, fun m s => ?_, fun m c x => ?_,
    fun m s => ?_, fun m => ?_⟩
  · rw [hall]
    constructor
    · rintro (h | h | ⟨h, -⟩ | (⟨_, _, h, -⟩ | ⟨_, _, h, -⟩) | (⟨_, _, h, -⟩ | ⟨_, _, h, -⟩) | ⟨h, -⟩)
      · cases h; rfl
      · obtain ⟨_, _, _, _, _, h⟩ := hkind h; cases h
      all_goals cases h
    · rintro rfl; exact .inl rfl
  · rw [hall]
    constructor
    · rintro (h | h | ⟨h, -⟩ | (⟨_, _, h, -⟩ | ⟨_, _, h, -⟩) | (⟨_, _, h, -⟩ | ⟨_, _, h, -⟩) | ⟨h, -⟩)
      · cases h
      · obtain ⟨rfl, h'⟩ := (hchg m c x s2 s1 rules).1 h
        exact ⟨rfl, h'⟩
      all_goals cases h
    · rintro ⟨rfl, h0⟩; exact .inr (.inl ((hchg m c x s2 s1 rules).2 ⟨rfl, h0⟩))
  · rw [hall]
    constructor
    · rintro (h | h | ⟨h, h'⟩ | (⟨_, _, h, -⟩ | ⟨_, _, h, -⟩) | (⟨_, _, h, -⟩ | ⟨_, _, h, -⟩) | ⟨h, -⟩)
      · cases h
      · obtain ⟨_, _, _, _, _, h⟩ := hkind h; cases h
      · cases h; exact ⟨rfl, h'⟩
      all_goals cases h
    · rintro ⟨rfl, h0⟩; exact .inr (.inr (.inl ⟨rfl, h0⟩))
  · rw [hall]
    constructor
    · rintro (h | h | ⟨h, -⟩ | (⟨_, _, h, h'⟩ | ⟨_, _, h, -⟩) | (⟨_, _, h, -⟩ | ⟨_, _, h, -⟩) | ⟨h, -⟩)
      · cases h
      · obtain ⟨_, _, _, _, _, h⟩ := hkind h; cases h
      · cases h
      · cases h; exact ⟨rfl, h'⟩
      all_goals cases h
    · rintro ⟨rfl, h0⟩; exact .inr (.inr (.inr (.inl (.inl ⟨c, x, rfl, h0⟩))))
  · rw [hall]
    constructor
    · rintro (h | h | ⟨h, -⟩ | (⟨_, _, h, -⟩ | ⟨_, _, h, h'⟩) | (⟨_, _, h, -⟩ | ⟨_, _, h, -⟩) | ⟨h, -⟩)
      · cases h
      · obtain ⟨_, _, _, _, _, h⟩ := hkind h; cases h
      · cases h
      · cases h
      · cases h; exact ⟨rfl, _, _, h'.1, h'.2, rfl⟩
      all_goals cases h
    · rintro ⟨rfl, x, i, h1, h2, rfl⟩; exact .inr (.inr (.inr (.inl (.inr ⟨x, i, rfl, h1, h2⟩))))
  · rw [hall]
    constructor
    · rintro (h | h | ⟨h, -⟩ | (⟨_, _, h, -⟩ | ⟨_, _, h, -⟩) | (⟨_, _, h, h'⟩ | ⟨_, _, h, -⟩) | ⟨h, -⟩)
      · cases h
      · obtain ⟨_, _, _, _, _, h⟩ := hkind h; cases h
      · cases h
      · cases h
      · cases h
      · cases h; exact ⟨rfl, h'⟩
      all_goals cases h
    · rintro ⟨rfl, h0⟩; exact .inr (.inr (.inr (.inr (.inl (.inl ⟨c, x, rfl, h0⟩)))))
  · rw [hall]
    constructor
    · rintro (h | h | ⟨h, -⟩ | (⟨_, _, h, -⟩ | ⟨_, _, h, -⟩) | (⟨_, _, h, -⟩ | ⟨_, _, h, h'⟩) | ⟨h, -⟩)
      · cases h
      · obtain ⟨_, _, _, _, _, h⟩ := hkind h; cases h
      · cases h
      · cases h
      · cases h
      · cases h
      · cases h; exact ⟨rfl, _, _, h'.1, h'.2, rfl⟩
      · cases h
    · rintro ⟨rfl, x, i, h1, h2, rfl⟩; exact .inr (.inr (.inr (.inr (.inl (.inr ⟨x, i, rfl, h1, h2⟩)))))
  · have hsame : (newVariants es2 es1 = [] ∧ newVariants es1 es2 = []) ↔
        ∀ x, x ∈ (computed dispo1 quiet l).map Prod.fst ↔ x ∈ (computed dispo2 quiet l).map Prod.fst := by
      rw [hnil, hnil]
      simp only [hnew h2 h1, hnew h1 h2]
      unfold New
      constructor
      · rintro ⟨k1, k2⟩ x
        constructor
        · intro hx; by_contra hn; exact k2 ⟨x, hx, hn⟩
        · intro hx; by_contra hn; exact k1 ⟨x, hx, hn⟩
      · intro h
        exact ⟨fun ⟨x, h1, h2⟩ => h2 ((h x).2 h1), fun ⟨x, h1, h2⟩ => h2 ((h x).1 h1)⟩
    rw [hall]
    constructor
    · rintro (h | h | ⟨h, -⟩ | (⟨_, _, h, -⟩ | ⟨_, _, h, -⟩) | (⟨_, _, h, -⟩ | ⟨_, _, h, -⟩) | ⟨h, h'⟩)
      · cases h
      · obtain ⟨_, _, _, _, _, h⟩ := hkind h; cases h
      · cases h
      · cases h
      · cases h
      · cases h
      · cases h
      · cases h; exact ⟨rfl, hsame.1 h'⟩
    · rintro ⟨rfl, h0⟩; exact .inr (.inr (.inr (.inr (.inr ⟨rfl, hsame.2 h0⟩))))

end Lgr.Props.C114

import Verif.Props.Index
import Verif.Props.Disposition

/-!
# C18, C19: index labels as canonical representatives
-/

namespace Lgr.Props
open Repertoire

/-- The repertoire has a variant mapping from `x` to `y`. -/
def VarRel (r : Repertoire) (x y : Seq) : Prop :=
  ∃ c, r.getChar x = .ok c ∧ ∃ v ∈ c.getVariants, v.cp = y

/-- Each mapping has the reverse mapping. -/
def SymmetricR (r : Repertoire) : Prop := ∀ x y, VarRel r x y → VarRel r y x

/-- The variants of a variant are variants. -/
def TransitiveR (r : Repertoire) : Prop :=
  ∀ x y z, VarRel r x y → VarRel r y z → x ≠ z → VarRel r x z

/-- No variant has a context rule. -/
def Unconditional (r : Repertoire) : Prop :=
  ∀ c, r.getChar c.cp = .ok c → ∀ v ∈ c.getVariants, v.whenR = none ∧ v.notWhenR = none

/-- Equal or variants. -/
def Cls (r : Repertoire) (x y : Seq) : Prop := x = y ∨ VarRel r x y

variable {r : Repertoire}

theorem getChar_cp {x : Seq} {c : CharObj} (h : r.getChar x = .ok c) : c.cp = x :=
  lookup_cp (getChar_ok.1 h)

theorem getChar_self {x : Seq} {c : CharObj} (h : r.getChar x = .ok c) : r.getChar c.cp = .ok c := by
  rw [getChar_cp h]; exact h

/-- All mappings of a repertoire (to check the definitions above on concrete repertoires). -/
def mappings (r : Repertoire) : List (Seq × Seq) :=
  r.dict.flatMap (fun p => p.2.flatMap (fun c => c.getVariants.map (fun v => (c.cp, v.cp))))

theorem mem_mappings (h : WF r) {x y : Seq} : (x, y) ∈ mappings r ↔ VarRel r x y := by
  simp only [mappings, List.mem_flatMap, List.mem_map, Prod.mk.injEq, VarRel]
  constructor
  · rintro ⟨p, hp, c, hc, v, hv, rfl, rfl⟩
    obtain ⟨t, ht⟩ := h.filed p hp c hc
    refine ⟨c, getChar_ok.2 ((lookup_eq_some h).2 ⟨p.1, t, ht, ?_, rfl⟩), v, hv, rfl⟩
    unfold bucket
    rw [dget_of_mem h.keys (show (p.1, p.2) ∈ r.dict from hp)]
    exact hc
  · rintro ⟨c, hg, v, hv, rfl⟩
    obtain ⟨i, t, rfl, hb, hc⟩ := (lookup_eq_some h).1 (getChar_ok.1 hg)
    obtain ⟨p, hp, -, hm⟩ := bucket_mem hb
    exact ⟨p, hp, c, hm, v, hv, hc, rfl⟩

theorem symmetric_of (h : WF r) (hc : ∀ m ∈ mappings r, (m.2, m.1) ∈ mappings r) :
    SymmetricR r := by
  intro x y hxy
  exact (mem_mappings h).1 (hc _ ((mem_mappings h).2 hxy))

theorem transitive_of (h : WF r) (hc : ∀ m ∈ mappings r, ∀ n ∈ mappings r, m.2 = n.1 → m.1 ≠ n.2 →
    (m.1, n.2) ∈ mappings r) : TransitiveR r := by
  intro x y z hxy hyz hne
  exact (mem_mappings h).1 (hc _ ((mem_mappings h).2 hxy) _ ((mem_mappings h).2 hyz) rfl hne)

theorem stored_in_dict (h : WF r) {c : CharObj} (hg : r.getChar c.cp = .ok c) :
    ∃ p ∈ r.dict, c ∈ p.2 := by
  obtain ⟨i, t, -, hb, -⟩ := (lookup_eq_some h).1 (getChar_ok.1 hg)
  obtain ⟨p, hp, -, hm⟩ := bucket_mem hb
  exact ⟨p, hp, hm⟩

theorem unconditional_of (h : WF r) (hc : ∀ p ∈ r.dict, ∀ c ∈ p.2, ∀ v ∈ c.getVariants,
    v.whenR = none ∧ v.notWhenR = none) : Unconditional r := by
  intro c hg
  obtain ⟨p, hp, hm⟩ := stored_in_dict h hg
  exact hc p hp c hm

theorem prefixFree_of (h : WF r) (hc : ∀ p ∈ r.dict, ∀ c ∈ p.2, ∀ q ∈ r.dict, ∀ d ∈ q.2,
    c.cp <+: d.cp → c = d) : C14.PrefixFree r := by
  intro c d hg hg' hp
  obtain ⟨p, hp', hm⟩ := stored_in_dict h hg
  obtain ⟨q, hq', hm'⟩ := stored_in_dict h hg'
  exact hc p hp' c hm q hq' d hm' hp

theorem Cls.symm (hs : SymmetricR r) {x y : Seq} (h : Cls r x y) : Cls r y x :=
  h.imp Eq.symm (hs x y)

theorem Cls.trans (ht : TransitiveR r) {x y z : Seq} (h1 : Cls r x y) (h2 : Cls r y z) :
    Cls r x z := by
  rcases h1 with rfl | h1
  · exact h2
  · rcases h2 with rfl | h2
    · exact Or.inr h1
    · by_cases hxz : x = z
      · exact Or.inl hxz
      · exact Or.inr (ht x y z h1 h2 hxz)

/-- By symmetry everything related to an entry is an entry. -/
theorem Cls.stored (hs : SymmetricR r) {c : CharObj} (hg : r.getChar c.cp = .ok c) {y : Seq}
    (h : Cls r c.cp y) : ∃ d, r.getChar y = .ok d := by
  rcases h with rfl | h
  · exact ⟨c, hg⟩
  · obtain ⟨d, hd, _⟩ := hs _ _ h
    exact ⟨d, hd⟩

theorem cls_iff {c : CharObj} (hg : r.getChar c.cp = .ok c) {y : Seq} :
    Cls r c.cp y ↔ y = c.cp ∨ ∃ v ∈ c.getVariants, v.cp = y := by
  unfold Cls VarRel
  constructor
  · rintro (h | ⟨d, hd, h⟩)
    · exact Or.inl h.symm
    · rw [hg] at hd; cases hd; exact Or.inr h
  · rintro (h | h)
    · exact Or.inl h.symm
    · exact Or.inr ⟨c, hg, h⟩

theorem choices_eq (hu : Unconditional r) {env : Env} {c : CharObj} (hg : r.getChar c.cp = .ok c)
    (pre post : Seq) : Choices env pre c post = { y | Cls r c.cp y } := by
  ext y
  simp only [Choices, Set.mem_setOf_eq, cls_iff hg]
  apply or_congr_right
  constructor
  · rintro ⟨v, h1, h2, _⟩; exact ⟨v, h1, h2⟩
  · rintro ⟨v, h1, h2⟩
    obtain ⟨h3, h4⟩ := hu c hg v h1
    exact ⟨v, h1, h2, by simp [CtxHolds, h3, h4]⟩

/-- `m` is the least element of the class of `c`. -/
def LeastOf (r : Repertoire) (c : CharObj) (m : Seq) : Prop := IsLeast { y | Cls r c.cp y } m

theorem partIndex_classes (hu : Unconditional r) {env : Env} : ∀ {cs : List CharObj} {pre i : Seq},
    (∀ c ∈ cs, r.getChar c.cp = .ok c) → PartIndex env pre cs i →
    ∃ ms, List.Forall₂ (LeastOf r) cs ms ∧ i = ms.flatten
  | [], pre, i, _, h => by cases h; exact ⟨[], .nil, rfl⟩
  | c :: cs, pre, i, hg, h => by
    cases h with
    | cons hm ht =>
      obtain ⟨ms, h1, rfl⟩ := partIndex_classes hu (fun d hd => hg d (List.mem_cons_of_mem _ hd)) ht
      rw [choices_eq hu (hg c List.mem_cons_self)] at hm
      exact ⟨_ :: ms, .cons hm h1, rfl⟩

theorem seg_unique (hpf : C14.PrefixFree r) {env : Env} {label : Seq} {cs ds : List CharObj}
    (h1 : Segmentation env r label cs) (h2 : Segmentation env r label ds) : cs = ds :=
  C24.segments_unique hpf h1.stored h2.stored (h1.concat.trans h2.concat.symm)

/-- The index label of an accepted label is made of the least elements of the classes of its
characters. -/
theorem index_classes {env : Env} (h : WF r) (hpf : C14.PrefixFree r) (hu : Unconditional r)
    {label : Seq} (hl : label ≠ []) {p : Env.Prelim} (hp : env.prelim r label = .ok p)
    (hok : p.ok = true) (hd : RulesDefined env r) {i : Seq} (hi : env.indexLabel r label 0 = .ok i) :
    ∃ ms, List.Forall₂ (LeastOf r) p.chars ms ∧ i = ms.flatten := by
  obtain ⟨j, hj, ⟨cs, hcs, hpi⟩, _⟩ := C17.index_of_accepted h hd hl hp hok
  rw [hi] at hj; cases hj
  have hseg := (C13.accepted_is_segmentation h hp hok).1
  rw [seg_unique hpf hcs hseg] at hpi
  exact partIndex_classes hu hseg.stored hpi

theorem lift_stored : ∀ {ms : List Seq}, (∀ m ∈ ms, ∃ c, r.getChar m = .ok c) →
    ∃ cs : List CharObj, cs.map CharObj.cp = ms ∧ ∀ c ∈ cs, r.getChar c.cp = .ok c := by
  intro ms
  induction ms with
  | nil => intro _; exact ⟨[], rfl, by simp⟩
  | cons m ms ih =>
    intro hm
    obtain ⟨cs, h1, h2⟩ := ih (fun x hx => hm x (List.mem_cons_of_mem _ hx))
    obtain ⟨c, hc⟩ := hm m List.mem_cons_self
    refine ⟨c :: cs, by rw [List.map_cons, h1, getChar_cp hc], ?_⟩
    intro d hd
    rcases List.mem_cons.1 hd with rfl | hd
    · exact getChar_self hc
    · exact h2 d hd

theorem flatten_ne_nil {env : Env} {l : Seq} (hl : l ≠ []) {cs : List CharObj}
    (hseg : Segmentation env r l cs) {ms : List Seq} (hms : List.Forall₂ (LeastOf r) cs ms)
    (hst : ∀ m ∈ ms, ∃ c, r.getChar m = .ok c) : ms.flatten ≠ [] := by
  intro h0
  cases ms with
  | nil =>
    have h00 := List.forall₂_nil_right_iff.1 hms
    exact hl (by rw [← hseg.concat, h00]; rfl)
  | cons m ms =>
    obtain ⟨d, hd'⟩ := hst _ List.mem_cons_self
    rw [List.flatten_cons] at h0
    have hz := (List.append_eq_nil_iff.1 h0).1
    have := getChar_cp hd'
    rw [hz] at this
    exact getChar_ne_nil (getChar_self hd') this

/-- Two lists of entries with the same concatenation are the same. -/
theorem flatten_unique (hpf : C14.PrefixFree r) {ms ns : List Seq}
    (h1 : ∀ m ∈ ms, ∃ c, r.getChar m = .ok c) (h2 : ∀ m ∈ ns, ∃ c, r.getChar m = .ok c)
    (he : ms.flatten = ns.flatten) : ms = ns := by
  obtain ⟨cs, hc1, hc2⟩ := lift_stored h1
  obtain ⟨ds, hd1, hd2⟩ := lift_stored h2
  rw [← hc1, ← hd1] at he ⊢
  rw [C24.segments_unique hpf hc2 hd2 (by simpa [List.flatMap] using he)]

theorem least_stored (hs : SymmetricR r) {cs : List CharObj} {ms : List Seq}
    (hg : ∀ c ∈ cs, r.getChar c.cp = .ok c) (h : List.Forall₂ (LeastOf r) cs ms) :
    ∀ m ∈ ms, ∃ c, r.getChar m = .ok c := by
  induction h with
  | nil => simp
  | cons hm _ ih =>
    intro m hm'
    rcases List.mem_cons.1 hm' with rfl | hm'
    · exact Cls.stored hs (hg _ List.mem_cons_self) hm.1
    · exact ih (fun c hc => hg c (List.mem_cons_of_mem _ hc)) m hm'

/-- Members of the same class have the same least element. -/
theorem least_congr (hs : SymmetricR r) (ht : TransitiveR r) {c d : CharObj}
    (h : Cls r c.cp d.cp) {m : Seq} : LeastOf r c m ↔ LeastOf r d m := by
  unfold LeastOf
  have : { y | Cls r c.cp y } = { y | Cls r d.cp y } := by
    ext y
    exact ⟨fun hy => Cls.trans ht (Cls.symm hs h) hy, fun hy => Cls.trans ht h hy⟩
  rw [this]

/-- A label obtained by replacing segments by members of their class is the label itself or is
generated as a variant. -/
theorem classes_generated {env : FullEnv} (h : WF r) (hpf : C14.PrefixFree r) (hu : Unconditional r)
    {cs : List CharObj} (hg : ∀ c ∈ cs, r.getChar c.cp = .ok c) {xs : List Seq}
    (hc : List.Forall₂ (fun c x => Cls r c.cp x) cs xs) {gs : List FullEnv.Gen}
    (he : env.genVariants r false (cs.flatMap CharObj.cp) = .ok gs) :
    xs.flatten = cs.flatMap CharObj.cp ∨ ∃ g ∈ gs, g.cps = xs.flatten := by
  have key : ∃ ss : List Step, ss.map (fun s => s.1) = cs ∧ outOf ss = xs.flatten ∧
      (∀ s ∈ ss, ∀ v, s.2 = some v → v ∈ s.1.getVariants) := by
    clear he
    induction hc with
    | nil => exact ⟨[], rfl, rfl, by simp⟩
    | @cons c x cs xs hcx _ ih =>
      obtain ⟨ss, h1, h2, h3⟩ := ih (fun d hd => hg d (List.mem_cons_of_mem _ hd))
      rcases (cls_iff (hg c List.mem_cons_self)).1 hcx with rfl | ⟨v, hv, rfl⟩
      · refine ⟨(c, none) :: ss, by simp [h1], by rw [List.flatten_cons, ← h2]; rfl, ?_⟩
        intro s hs v hv
        rcases List.mem_cons.1 hs with rfl | hs
        · simp at hv
        · exact h3 s hs v hv
      · refine ⟨(c, some v) :: ss, by simp [h1], by rw [List.flatten_cons, ← h2]; rfl, ?_⟩
        intro s hs w hw
        rcases List.mem_cons.1 hs with rfl | hs
        · simp only [Option.some.injEq] at hw; subst hw; exact hv
        · exact h3 s hs w hw
  obtain ⟨ss, h1, h2, h3⟩ := key
  have hst : ∀ s ∈ ss, r.getChar s.1.cp = .ok s.1 := by
    intro s hs
    apply hg
    rw [← h1]; exact List.mem_map.2 ⟨s, hs, rfl⟩
  have hcat : origOf ss = cs.flatMap CharObj.cp := by
    rw [← h1]; simp [origOf, List.flatMap_map]
  by_cases hm : ∃ s ∈ ss, s.2.isSome = true
  · right
    have hval : ∀ {pfx : Seq} {ts : List Step}, (∀ s ∈ ts, r.getChar s.1.cp = .ok s.1) →
        (∀ s ∈ ts, ∀ v, s.2 = some v → v ∈ s.1.getVariants) →
        AllSteps (ValidStep env.toEnv) pfx ts := by
      intro pfx ts
      induction ts generalizing pfx with
      | nil => intro _ _; trivial
      | cons t ts ih =>
        intro a b
        refine ⟨?_, ih (fun s hs => a s (List.mem_cons_of_mem _ hs))
          (fun s hs => b s (List.mem_cons_of_mem _ hs))⟩
        intro v hv
        have hvm := b t List.mem_cons_self v hv
        obtain ⟨h5, h6⟩ := hu _ (a t List.mem_cons_self) v hvm
        exact ⟨hvm, by simp [VarCtx, CtxHolds, h5, h6]⟩
    obtain ⟨g, hg', hgc⟩ := C23.no_variant_missed_partial h (C23.extend_of_prefixFree hpf) he
      ⟨hcat, hst, hval hst h3⟩ hm
    exact ⟨g, hg', hgc.trans h2⟩
  · left
    rw [← h2, ← hcat]
    unfold outOf origOf
    apply List.flatMap_congr
    intro s hs
    cases ho : s.2 with
    | none => simp [Step.out, ho]
    | some v => exact absurd ⟨s, hs, by simp [ho]⟩ hm

end Lgr.Props

namespace Lgr.Props.C18
open Repertoire

/-- `l'` is `l` or a variant label of it. -/
def VariantOf (env : FullEnv) (r : Repertoire) (l l' : Seq) : Prop :=
  l' = l ∨ ∃ gs, env.genVariants r false l = .ok gs ∧ ∃ g ∈ gs, g.cps = l'

/-- The two halves of the property at full strength. -/
def SameIndexVariants : Prop :=
  ∀ (env : FullEnv) (ops : List Op) (l l' i : Seq), SymmetricR (run {} ops) →
    TransitiveR (run {} ops) → Accepted env (run {} ops) l → Accepted env (run {} ops) l' →
    env.indexLabel (run {} ops) l 0 = .ok i → env.indexLabel (run {} ops) l' 0 = .ok i →
    VariantOf env (run {} ops) l l' ∨ VariantOf env (run {} ops) l' l

def VariantsSameIndex : Prop :=
  ∀ (env : FullEnv) (ops : List Op) (l l' i i' : Seq), SymmetricR (run {} ops) →
    TransitiveR (run {} ops) → Accepted env (run {} ops) l → Accepted env (run {} ops) l' →
    env.indexLabel (run {} ops) l 0 = .ok i → env.indexLabel (run {} ops) l' 0 = .ok i' →
    VariantOf env (run {} ops) l l' → i = i'

/-- Index labels detect collisions exactly in prefix free, symmetric and transitive repertoires with
unconditional variants. Missing for the full property: repertoires where an entry is a prefix of
another one, and conditional variants; it is false there (below). -/
theorem same_index_iff_variant_partial {env : FullEnv} {r : Repertoire} (h : WF r)
    (hpf : C14.PrefixFree r) (hu : Unconditional r) (hs : SymmetricR r) (ht : TransitiveR r)
    (hd : RulesDefined env.toEnv r) {l l' i i' : Seq} (hl : l ≠ []) (hl' : l' ≠ [])
    (ha : Accepted env r l) (ha' : Accepted env r l')
    (hi : env.indexLabel r l 0 = .ok i) (hi' : env.indexLabel r l' 0 = .ok i') :
    i = i' ↔ VariantOf env r l l' := by
  obtain ⟨p, hp, hok⟩ := ha
  obtain ⟨p', hp', hok'⟩ := ha'
  obtain ⟨ms, hms, rfl⟩ := index_classes h hpf hu hl hp hok hd hi
  obtain ⟨ms', hms', rfl⟩ := index_classes h hpf hu hl' hp' hok' hd hi'
  have hseg := (C13.accepted_is_segmentation h hp hok).1
  have hseg' := (C13.accepted_is_segmentation h hp' hok').1
  obtain ⟨gs, hgs⟩ := genVariants_defined h hd false l
  constructor
  · intro he
    have hmm : ms = ms' := flatten_unique hpf (least_stored hs hseg.stored hms)
      (least_stored hs hseg'.stored hms') he
    subst hmm
    have hcls : List.Forall₂ (fun c x => Cls r c.cp x) p.chars (p'.chars.map CharObj.cp) := by
      rw [List.forall₂_map_right_iff]
      have : ∀ {cs ds : List CharObj} {ms : List Seq}, List.Forall₂ (LeastOf r) cs ms →
          List.Forall₂ (LeastOf r) ds ms → List.Forall₂ (fun c d => Cls r c.cp d.cp) cs ds := by
        intro cs ds ms h1
        induction h1 generalizing ds with
        | nil => intro h2; cases h2; exact .nil
        | cons hm _ ih =>
          intro h2
          cases h2 with
          | cons hm2 h2 => exact .cons (Cls.trans ht hm.1 (Cls.symm hs hm2.1)) (ih h2)
      exact this hms hms'
    have hgs2 := hgs
    rw [← hseg.concat] at hgs2
    have hx : (p'.chars.map CharObj.cp).flatten = l' := by
      rw [← hseg'.concat, List.flatMap]
    rcases classes_generated h hpf hu hseg.stored hcls hgs2 with h1 | ⟨g, hg, hgc⟩
    · left
      rw [hx, hseg.concat] at h1; exact h1
    · exact Or.inr ⟨gs, hgs, g, hg, hgc.trans hx⟩
  · rintro (rfl | ⟨gs', hgs', g, hg, hgc⟩)
    · rw [hp] at hp'; cases hp'
      rw [hi] at hi'
      simpa using hi'
    · rw [hgs] at hgs'; cases hgs'
      obtain ⟨ss, hr, hc, -⟩ := C22.generated_sound h hgs hg
      have hu1 : ss.map (fun s => s.1) = p.chars := by
        apply C24.segments_unique hpf
        · intro c hc
          obtain ⟨s, hs, rfl⟩ := List.mem_map.1 hc
          exact hr.stored s hs
        · exact hseg.stored
        · rw [hseg.concat, ← hr.concat]; simp [origOf, List.flatMap_map]
      have hval := C24.allSteps_valid hr.valid
      have hcls : ∀ s ∈ ss, Cls r s.1.cp s.out := by
        intro s hs'
        rw [cls_iff (hr.stored s hs')]
        unfold Step.out
        cases ho : s.2 with
        | none => exact Or.inl rfl
        | some v => exact Or.inr ⟨v, hval s hs' v ho, rfl⟩
      have hu2 : ss.map Step.out = p'.chars.map CharObj.cp := by
        apply flatten_unique hpf
        · intro m hm
          obtain ⟨s, hs', rfl⟩ := List.mem_map.1 hm
          exact Cls.stored hs (hr.stored s hs') (hcls s hs')
        · intro m hm
          obtain ⟨c, hc', rfl⟩ := List.mem_map.1 hm
          exact ⟨c, hseg'.stored c hc'⟩
        · have e1 : (ss.map Step.out).flatten = l' := by rw [← hgc, hc, outOf, List.flatMap]
          rw [e1, ← hseg'.concat, List.flatMap]
      have : ∀ {ss : List Step} {ds : List CharObj} {ms ms' : List Seq},
          (∀ s ∈ ss, Cls r s.1.cp s.out) → ss.map Step.out = ds.map CharObj.cp →
          List.Forall₂ (LeastOf r) (ss.map (fun s => s.1)) ms → List.Forall₂ (LeastOf r) ds ms' →
          ms = ms' := by
        intro ss
        induction ss with
        | nil =>
          intro ds ms ms' _ h1 h2 h3
          cases ds with
          | nil => cases h2; cases h3; rfl
          | cons d ds => simp at h1
        | cons s ss ih =>
          intro ds ms ms' h0 h1 h2 h3
          cases ds with
          | nil => simp at h1
          | cons d ds =>
            simp only [List.map_cons, List.cons.injEq] at h1
            cases h2 with
            | cons hm h2 =>
              cases h3 with
              | cons hm' h3 =>
                have hcd : Cls r s.1.cp d.cp := by rw [← h1.1]; exact h0 s List.mem_cons_self
                rw [ih (fun t ht => h0 t (List.mem_cons_of_mem _ ht)) h1.2 h2 h3,
                  hm.unique ((least_congr hs ht hcd).2 hm')]
      have hms2 : List.Forall₂ (LeastOf r) (ss.map (fun s => s.1)) ms := by rw [hu1]; exact hms
      rw [this hcls hu2 hms2 hms']

/-- The first half is false: entries `a`, `c`, `x`, `y`, `ab` ↔ `x`, `bc` ↔ `y`. Both `xc` and `ay`
have index label `abc`, neither is a variant of the other. -/
theorem same_index_not_variant : ¬ SameIndexVariants := by
  intro h
  have := h ⟨⟨fun _ _ _ _ => .ok true⟩, fun _ _ => .ok true, fun _ => "Latin"⟩
    [.addChar [97] {}, .addChar [99] {}, .addChar [120] {}, .addChar [121] {},
      .addChar [97, 98] {}, .addChar [98, 99] {},
      .addVariant [97, 98] { cp := [120] }, .addVariant [120] { cp := [97, 98] },
      .addVariant [98, 99] { cp := [121] }, .addVariant [121] { cp := [98, 99] }]
    [120, 99] [97, 121] [97, 98, 99]
    (symmetric_of (C01.wf_run _) (by decide +kernel))
    (transitive_of (C01.wf_run _) (by decide +kernel))
    ⟨_, by rfl, by rfl⟩ ⟨_, by rfl, by rfl⟩ (by decide +kernel) (by decide +kernel)
  rcases this with (h1 | ⟨gs, h1, g, hg, h2⟩) | (h1 | ⟨gs, h1, g, hg, h2⟩)
  · simp at h1
  · rw [show FullEnv.genVariants _ _ _ _ = .ok [⟨[97, 98, 99], [], false, [[97, 98], [99]]⟩] by
      decide +kernel] at h1
    cases h1
    simp at hg; subst hg; simp at h2
  · simp at h1
  · rw [show FullEnv.genVariants _ _ _ _ = .ok [⟨[97, 121], [], false, [[97], [121]]⟩,
      ⟨[97, 98, 99], [], false, [[97], [98, 99]]⟩] by decide +kernel] at h1
    cases h1
    simp at hg; rcases hg with rfl | rfl <;> simp at h2

/-- The second half is false: `p` ↔ `a`, `q` ↔ `b`, `ab` ↔ `A`. The label `pq` has index label `ab`,
its variant label `ab` has index label `A`. -/
theorem variant_other_index : ¬ VariantsSameIndex := by
  intro h
  have := h ⟨⟨fun _ _ _ _ => .ok true⟩, fun _ _ => .ok true, fun _ => "Latin"⟩
    [.addChar [97] {}, .addChar [98] {}, .addChar [112] {}, .addChar [113] {},
      .addChar [97, 98] {}, .addChar [65] {},
      .addVariant [97] { cp := [112] }, .addVariant [112] { cp := [97] },
      .addVariant [98] { cp := [113] }, .addVariant [113] { cp := [98] },
      .addVariant [97, 98] { cp := [65] }, .addVariant [65] { cp := [97, 98] }]
    [112, 113] [97, 98] [97, 98] [65]
    (symmetric_of (C01.wf_run _) (by decide +kernel))
    (transitive_of (C01.wf_run _) (by decide +kernel))
    ⟨_, by rfl, by rfl⟩ ⟨_, by rfl, by rfl⟩ (by decide +kernel) (by decide +kernel)
    (Or.inr ⟨_, by rfl, ⟨[97, 98], [], true, [[97], [98]]⟩, by decide +kernel, rfl⟩)
  simp at this

/-- Non-vacuity: entries `ab` ↔ `c` and `d` ↔ `e`; the labels `abe` and `cd` have index `abd`. -/
example : ∃ (env : FullEnv) (r : Repertoire), WF r ∧ C14.PrefixFree r ∧ Unconditional r ∧
    SymmetricR r ∧ TransitiveR r ∧ Accepted env r [97, 98, 101] ∧ Accepted env r [99, 100] ∧
    env.indexLabel r [97, 98, 101] 0 = .ok [97, 98, 100] ∧
    env.indexLabel r [99, 100] 0 = .ok [97, 98, 100] := by
  refine ⟨⟨⟨fun _ _ _ _ => .ok true⟩, fun _ _ => .ok true, fun _ => "Latin"⟩,
    run {} [.addChar [97, 98] {}, .addChar [99] {}, .addChar [100] {}, .addChar [101] {},
      .addVariant [97, 98] { cp := [99] }, .addVariant [99] { cp := [97, 98] },
      .addVariant [100] { cp := [101] }, .addVariant [101] { cp := [100] }], C01.wf_run _,
    prefixFree_of (C01.wf_run _) (by decide +kernel),
    unconditional_of (C01.wf_run _) (by decide +kernel),
    symmetric_of (C01.wf_run _) (by decide +kernel),
    transitive_of (C01.wf_run _) (by decide +kernel), ⟨_, by rfl, by rfl⟩, ⟨_, by rfl, by rfl⟩,
    by decide +kernel, by decide +kernel⟩

end Lgr.Props.C18

namespace Lgr.Props.C19
open Repertoire

theorem append_lt {m c : Seq} (h : m < c) (hp : ¬ m <+: c) (a b : Seq) : m ++ a < c ++ b := by
  induction m generalizing c with
  | nil => exact absurd (List.nil_prefix) hp
  | cons x m ih =>
    cases c with
    | nil => exact absurd h (by simp)
    | cons y c =>
      rw [List.cons_lt_cons_iff] at h
      show x :: (m ++ a) < y :: (c ++ b)
      rw [List.cons_lt_cons_iff]
      rcases h with h | ⟨rfl, h⟩
      · exact Or.inl h
      · refine Or.inr ⟨rfl, ih h ?_⟩
        intro hpre
        exact hp (List.cons_prefix_cons.2 ⟨rfl, hpre⟩)

theorem append_le {m : Seq} {a b : Seq} (h : a ≤ b) : m ++ a ≤ m ++ b := by
  induction m with
  | nil => exact h
  | cons x m ih =>
    rcases lt_or_eq_of_le ih with h1 | h1
    · apply le_of_lt
      show x :: (m ++ a) < x :: (m ++ b)
      rw [List.cons_lt_cons_iff]; exact Or.inr ⟨rfl, h1⟩
    · simp [h1]

/-- The index label of an accepted label is a variant of it (or the label), is not greater, and, when
it is itself accepted, is its own index label: for prefix free, symmetric and transitive
repertoires with unconditional variants. Missing for the full property: other repertoires; it is
false there (below). -/
theorem canonical_partial {env : FullEnv} {r : Repertoire} (h : WF r)
    (hpf : C14.PrefixFree r) (hu : Unconditional r) (hs : SymmetricR r) (ht : TransitiveR r)
    (hd : RulesDefined env.toEnv r) {l i : Seq} (hl : l ≠ [])
    (ha : Accepted env r l) (hi : env.indexLabel r l 0 = .ok i) :
    C18.VariantOf env r l i ∧ i ≤ l ∧
      (Accepted env r i → ∀ j, env.indexLabel r i 0 = .ok j → j = i) := by
  obtain ⟨p, hp, hok⟩ := ha
  obtain ⟨ms, hms, rfl⟩ := index_classes h hpf hu hl hp hok hd hi
  have hseg := (C13.accepted_is_segmentation h hp hok).1
  have hst := least_stored hs hseg.stored hms
  have hvar : C18.VariantOf env r l ms.flatten := by
    obtain ⟨gs, hgs⟩ := genVariants_defined h hd false l
    have hgs2 := hgs
    rw [← hseg.concat] at hgs2
    rcases classes_generated h hpf hu hseg.stored (hms.imp (fun c m hm => hm.1)) hgs2 with
      h1 | ⟨g, hg, hgc⟩
    · left; rw [h1, hseg.concat]
    · exact Or.inr ⟨gs, hgs, g, hg, hgc⟩
  refine ⟨hvar, ?_, ?_⟩
  · have : ∀ {cs : List CharObj} {ms : List Seq}, (∀ c ∈ cs, r.getChar c.cp = .ok c) →
        List.Forall₂ (LeastOf r) cs ms → ms.flatten ≤ cs.flatMap CharObj.cp := by
      intro cs ms hg h1
      induction h1 with
      | nil => exact le_refl _
      | @cons c m cs ms hm _ ih =>
        have ih := ih (fun d hd => hg d (List.mem_cons_of_mem _ hd))
        have hgc := hg c List.mem_cons_self
        rw [List.flatten_cons, List.flatMap_cons]
        by_cases hmc : m = c.cp
        · rw [hmc]; exact append_le ih
        · apply le_of_lt
          apply append_lt
          · exact lt_of_le_of_ne (hm.2 (Or.inl rfl)) hmc
          · intro hpre
            obtain ⟨d, hd'⟩ := Cls.stored hs hgc hm.1
            have hdc := getChar_cp hd'
            rw [← hdc] at hpre
            exact hmc (by rw [← hdc, hpf d c (getChar_self hd') hgc hpre])
    rw [← hseg.concat]
    exact this hseg.stored hms
  · intro hacc j hj
    obtain ⟨q, hq, hqok⟩ := hacc
    have hne := flatten_ne_nil hl hseg hms hst
    obtain ⟨ns, hns, rfl⟩ := index_classes h hpf hu hne hq hqok hd hj
    have hsq := (C13.accepted_is_segmentation h hq hqok).1
    have hqs : q.chars.map CharObj.cp = ms := by
      apply flatten_unique hpf
      · intro m hm
        obtain ⟨c, hc, rfl⟩ := List.mem_map.1 hm
        exact ⟨c, hsq.stored c hc⟩
      · exact hst
      · rw [← hsq.concat, List.flatMap]
    have : ∀ {cs ds : List CharObj} {ms ns : List Seq}, List.Forall₂ (LeastOf r) cs ms →
        ds.map CharObj.cp = ms → List.Forall₂ (LeastOf r) ds ns → ns = ms := by
      intro cs ds ms ns h1
      induction h1 generalizing ds ns with
      | nil =>
        intro h2 h3
        have : ds = [] := List.map_eq_nil_iff.1 h2
        subst this; cases h3; rfl
      | @cons c m cs ms hm _ ih =>
        intro h2 h3
        cases ds with
        | nil => simp at h2
        | cons d ds =>
          simp only [List.map_cons, List.cons.injEq] at h2
          cases h3 with
          | cons hn h3 =>
            have hcd : Cls r c.cp d.cp := by rw [h2.1]; exact hm.1
            rw [ih h2.2 h3, ((least_congr hs ht hcd).2 hn).unique hm]
    rw [this hms hqs hns]

/-- With no context rules on the entries the index label is accepted, hence its own index label. -/
theorem index_idempotent_partial {env : FullEnv} {r : Repertoire} (h : WF r)
    (hpf : C14.PrefixFree r) (hu : Unconditional r) (hs : SymmetricR r) (ht : TransitiveR r)
    (hc : ∀ c, r.getChar c.cp = .ok c → c.attrs.whenR = none ∧ c.attrs.notWhenR = none)
    (hd : RulesDefined env.toEnv r) {l i : Seq} (hl : l ≠ [])
    (ha : Accepted env r l) (hi : env.indexLabel r l 0 = .ok i) :
    env.indexLabel r i 0 = .ok i := by
  have hcan := canonical_partial h hpf hu hs ht hd hl ha hi
  obtain ⟨p, hp, hok⟩ := ha
  obtain ⟨ms, hms, rfl⟩ := index_classes h hpf hu hl hp hok hd hi
  have hseg := (C13.accepted_is_segmentation h hp hok).1
  have hst := least_stored hs hseg.stored hms
  obtain ⟨cs, hc1, hc2⟩ := lift_stored hst
  have hne := flatten_ne_nil hl hseg hms hst
  have hsegi : Segmentation env.toEnv r ms.flatten cs := by
    refine ⟨by rw [← hc1, List.flatMap], hc2, ?_⟩
    intro pre c post hcs
    obtain ⟨h5, h6⟩ := hc c (hc2 c (by simp [hcs]))
    simp [CharCtx, CtxHolds, h5, h6]
  obtain ⟨q, hq⟩ := prelim_defined h hd ms.flatten
  have hqok := (C14.accepts_iff_segmentable_partial h hpf hq).2 ⟨cs, hsegi⟩
  obtain ⟨j, hj, -⟩ := C17.index_of_accepted h hd hne hq hqok
  rw [hj, hcan.2.2 ⟨q, hq, hqok⟩ j hj]

/-- The parts of the property at full strength. -/
def Idempotent : Prop :=
  ∀ (env : FullEnv) (ops : List Op) (l i j : Seq), SymmetricR (run {} ops) →
    TransitiveR (run {} ops) → Accepted env (run {} ops) l →
    env.indexLabel (run {} ops) l 0 = .ok i → env.indexLabel (run {} ops) i 0 = .ok j → j = i

def NotGreater : Prop :=
  ∀ (env : FullEnv) (ops : List Op) (l i : Seq), SymmetricR (run {} ops) →
    TransitiveR (run {} ops) → Accepted env (run {} ops) l →
    env.indexLabel (run {} ops) l 0 = .ok i → i ≤ l

/-- `p` ↔ `a`, `q` ↔ `b`, `ab` ↔ `A`: the index label of `pq` is `ab`, whose index label is `A`. -/
theorem index_not_idempotent : ¬ Idempotent := by
  intro h
  have := h ⟨⟨fun _ _ _ _ => .ok true⟩, fun _ _ => .ok true, fun _ => "Latin"⟩
    [.addChar [97] {}, .addChar [98] {}, .addChar [112] {}, .addChar [113] {},
      .addChar [97, 98] {}, .addChar [65] {},
      .addVariant [97] { cp := [112] }, .addVariant [112] { cp := [97] },
      .addVariant [98] { cp := [113] }, .addVariant [113] { cp := [98] },
      .addVariant [97, 98] { cp := [65] }, .addVariant [65] { cp := [97, 98] }]
    [112, 113] [97, 98] [65]
    (symmetric_of (C01.wf_run _) (by decide +kernel))
    (transitive_of (C01.wf_run _) (by decide +kernel))
    ⟨_, by rfl, by rfl⟩ (by decide +kernel) (by decide +kernel)
  simp at this

/-- `ab` ↔ `a`, and `z`: the index label of `abz` is `az`, which is greater. -/
theorem index_greater : ¬ NotGreater := by
  intro h
  have := h ⟨⟨fun _ _ _ _ => .ok true⟩, fun _ _ => .ok true, fun _ => "Latin"⟩
    [.addChar [97] {}, .addChar [97, 98] {}, .addChar [122] {},
      .addVariant [97] { cp := [97, 98] }, .addVariant [97, 98] { cp := [97] }]
    [97, 98, 122] [97, 122]
    (symmetric_of (C01.wf_run _) (by decide +kernel))
    (transitive_of (C01.wf_run _) (by decide +kernel))
    ⟨_, by rfl, by rfl⟩ (by decide +kernel)
  exact absurd this (by decide)

end Lgr.Props.C19

import Verif.Variants
import Verif.Props.Eligibility

/-!
# C22, C23, C41: variant generation
-/

namespace Lgr.Props
open Repertoire

/-! ## Specification: rewriting a label segment by segment -/

/-- One segment: a repertoire character, kept (`none`) or replaced by a variant. -/
abbrev Step := CharObj × Option Variant

/-- What stands in the variant label for this segment. -/
def Step.out (s : Step) : Seq :=
  match s.2 with
  | some v => v.cp
  | none => s.1.cp

/-- The original label of a list of segments. -/
def origOf (ss : List Step) : Seq := ss.flatMap (fun s => s.1.cp)

/-- The variant label of a list of segments. -/
def outOf (ss : List Step) : Seq := ss.flatMap Step.out

/-- The types of the mappings used. -/
def HasType (ss : List Step) (t : String) : Prop :=
  ∃ c v, (c, some v) ∈ ss ∧ v.type = some t

/-- Every segment satisfies `P`, given what was produced before it and the original of what
follows. -/
def AllSteps (P : Seq → Step → Seq → Prop) : Seq → List Step → Prop
  | _, [] => True
  | pfx, s :: ss => P pfx s (origOf ss) ∧ AllSteps P (pfx ++ s.out) ss

/-- The context of `v` is valid when it stands between `pfx` and `rest`. -/
def VarCtx (env : Env) (pfx : Seq) (v : Variant) (rest : Seq) : Prop :=
  CtxHolds env v.whenR v.notWhenR v.cp (pfx ++ v.cp ++ rest) pfx.length

/-- A replaced segment uses one of its character's variants, in valid context. -/
def ValidStep (env : Env) (pfx : Seq) (s : Step) (rest : Seq) : Prop :=
  ∀ v, s.2 = some v → v ∈ s.1.getVariants ∧ VarCtx env pfx v rest

/-- A kept segment has no reflexive variant valid at that place (else that mapping is used). -/
def KeptStep (env : Env) (pfx : Seq) (s : Step) (rest : Seq) : Prop :=
  s.2 = none → ∀ v ∈ s.1.getVariants, v.cp = s.1.cp → ¬ VarCtx env pfx v rest

/-- `d` is a repertoire character with variants that starts `label` and is in valid context
behind `pfx`. -/
def Fertile (env : Env) (r : Repertoire) (pfx label : Seq) (d : CharObj) : Prop :=
  r.getChar d.cp = .ok d ∧ d.cp <+: label ∧ d.hasVariant = true ∧
    CtxHolds env d.attrs.whenR d.attrs.notWhenR d.cp (pfx ++ label) pfx.length

/-- The characters the generation tries at the start of `label`: the fertile ones, everything
shorter than a fertile one, and everything when there is no fertile one. -/
def Tried (env : Env) (r : Repertoire) (pfx label : Seq) (c : CharObj) : Prop :=
  Fertile env r pfx label c ∨ (∃ d, Fertile env r pfx label d ∧ c.len < d.len) ∨
    ¬ ∃ d, Fertile env r pfx label d

def TriedStep (env : Env) (r : Repertoire) (pfx : Seq) (s : Step) (rest : Seq) : Prop :=
  Tried env r pfx (s.1.cp ++ rest) s.1

/-- `ss` rewrites `label`: the segments are repertoire characters, in sequence they are the label,
and each is kept or replaced by a variant in valid context. -/
structure Rewrites (env : Env) (r : Repertoire) (label : Seq) (ss : List Step) : Prop where
  concat : origOf ss = label
  stored : ∀ s ∈ ss, r.getChar s.1.cp = .ok s.1
  valid : AllSteps (ValidStep env) [] ss

/-- The generated item for a list of segments. -/
def build : List Step → FullEnv.Gen
  | [] => ⟨[], [], true, []⟩
  | s :: ss =>
    let g := build ss
    ⟨s.out ++ g.cps, g.disp ++ (s.2.bind Variant.type).toList.map some, s.2.isSome && g.only,
      s.out :: g.chars⟩

theorem build_cps (ss : List Step) : (build ss).cps = outOf ss := by
  induction ss with
  | nil => rfl
  | cons s ss ih => simp [build, outOf, ih]

theorem build_only (ss : List Step) : (build ss).only = true ↔ ∀ s ∈ ss, s.2.isSome := by
  induction ss with
  | nil => simp [build]
  | cons s ss ih => simp [build, ih]

theorem build_chars (ss : List Step) : (build ss).chars = ss.map Step.out := by
  induction ss with
  | nil => rfl
  | cons s ss ih => simp [build, ih]

theorem build_disp (ss : List Step) (t : Option String) :
    t ∈ (build ss).disp ↔ ∃ u, t = some u ∧ HasType ss u := by
  induction ss with
  | nil => simp [build, HasType]
  | cons s ss ih =>
    obtain ⟨c, o⟩ := s
    simp only [build, List.mem_append, ih, List.mem_map, Option.mem_toList]
    constructor
    · rintro (⟨u, rfl, c', v, h, hv⟩ | ⟨u, hu, rfl⟩)
      · exact ⟨u, rfl, c', v, List.mem_cons_of_mem _ h, hv⟩
      · cases o with
        | none => simp at hu
        | some v => simp at hu; exact ⟨u, rfl, c, v, List.mem_cons_self, hu⟩
    · rintro ⟨u, rfl, c', v, h, hv⟩
      rcases List.mem_cons.1 h with h | h
      · cases h; right; exact ⟨u, by simpa using hv, rfl⟩
      · left; exact ⟨u, rfl, c', v, h, hv⟩

theorem allSteps_and {P Q : Seq → Step → Seq → Prop} : ∀ {pfx : Seq} {ss : List Step},
    AllSteps (fun a b c => P a b c ∧ Q a b c) pfx ss ↔ AllSteps P pfx ss ∧ AllSteps Q pfx ss
  | _, [] => by simp [AllSteps]
  | pfx, s :: ss => by
    simp only [AllSteps, allSteps_and (pfx := pfx ++ s.out)]
    tauto

/-! ## The characters tried -/

theorem charsFromPrefix_vars {r : Repertoire} {x : Nat} {all : List CharObj}
    (h : r.charsFromPrefix x = .ok all) :
    ∃ wv, r.charsFromPrefix x (onlyVariants := true) = .ok wv ∧
      (∀ c, c ∈ wv ↔ c ∈ all ∧ c.hasVariant = true) ∧ wv.Pairwise (fun a b => b.len ≤ a.len) := by
  unfold charsFromPrefix at h ⊢
  cases hd : dget r.dict x with
  | none => simp [hd] at h
  | some l =>
    simp [hd] at h
    subst h
    exact ⟨_, rfl, by simp, sortDesc_sorted _ _⟩

theorem prefixLoop_spec {env : FullEnv} {label pfx : Seq} : ∀ (cs l : List CharObj),
    env.prefixLoop label pfx cs = .ok l →
    ∀ c, c ∈ l ↔ c ∈ cs ∧ c.cp <+: label ∧
      CtxHolds env.toEnv c.attrs.whenR c.attrs.notWhenR c.cp (pfx ++ label) pfx.length
  | [], l, he, c => by simp [FullEnv.prefixLoop] at he; simp [he]
  | d :: cs, l, he, c => by
    unfold FullEnv.prefixLoop at he
    by_cases hp : d.cp <+: label
    · have hp' := (CharObj.isPrefixOf_iff d label).2 hp
      simp only [hp', Bool.not_true, Bool.false_eq_true, if_false] at he
      have hlab : pfx ++ d.cp ++ label.drop d.len = pfx ++ label := by
        obtain ⟨u, rfl⟩ := hp
        rw [CharObj.len, List.drop_left, List.append_assoc]
      rw [hlab] at he
      cases ht : env.testChar d (pfx ++ label) pfx.length with
      | error e => simp [ht] at he
      | ok b =>
        simp only [ht] at he
        cases hr : env.prefixLoop label pfx cs with
        | error e => simp [hr] at he
        | ok l' =>
          simp [hr] at he
          have ih := prefixLoop_spec cs l' hr c
          cases b with
          | true =>
            simp at he; subst he
            have := testContext_true.1 ht
            simp only [List.mem_cons, ih]
            constructor
            · rintro (rfl | ⟨h1, h2⟩)
              · exact ⟨Or.inl rfl, hp, this⟩
              · exact ⟨Or.inr h1, h2⟩
            · rintro ⟨rfl | h1, h2⟩
              · exact Or.inl rfl
              · exact Or.inr ⟨h1, h2⟩
          | false =>
            simp at he; subst he
            have hf := testContext_false.1 ht
            simp only [List.mem_cons, ih]
            constructor
            · rintro ⟨h1, h2⟩; exact ⟨Or.inr h1, h2⟩
            · rintro ⟨rfl | h1, h2⟩
              · exact absurd hf (ctx_not_both h2.2)
              · exact ⟨h1, h2⟩
    · have hp' : d.isPrefixOf label = false := by
        rw [Bool.eq_false_iff, Ne, CharObj.isPrefixOf_iff]; exact hp
      simp only [hp', Bool.not_false, if_true] at he
      rw [prefixLoop_spec cs l he c, List.mem_cons]
      constructor
      · rintro ⟨h1, h2⟩; exact ⟨Or.inr h1, h2⟩
      · rintro ⟨rfl | h1, h2⟩
        · exact absurd h2.1 hp
        · exact ⟨h1, h2⟩

/-- Two repertoire characters starting the same label are nested, hence equal when of equal
length. -/
theorem eq_of_prefix_len {r : Repertoire} {label : Seq} {c d : CharObj}
    (hc : r.getChar c.cp = .ok c) (hd : r.getChar d.cp = .ok d) (h1 : c.cp <+: label)
    (h2 : d.cp <+: label) (hl : c.len = d.len) : c = d := by
  have : c.cp = d.cp := by
    rcases List.prefix_or_prefix_of_prefix h1 h2 with h | h
    · exact h.eq_of_length hl
    · exact (h.eq_of_length hl.symm).symm
  rw [this, hd] at hc
  simpa using hc.symm

theorem samePrefix_spec {env : FullEnv} {r : Repertoire} (h : WF r) {x : Nat} {xs pfx : Seq}
    {cs : List CharObj} (he : env.samePrefix r x xs pfx = .ok cs) (c : CharObj) :
    c ∈ cs ↔ r.getChar c.cp = .ok c ∧ c.cp <+: x :: xs ∧ Tried env.toEnv r pfx (x :: xs) c := by
  have hstart : ∀ d : CharObj, r.getChar d.cp = .ok d → d.cp <+: x :: xs → ∃ t, d.cp = x :: t := by
    intro d hg hp
    cases hd : d.cp with
    | nil => exact absurd hd (getChar_ne_nil hg)
    | cons y t =>
      rw [hd] at hp
      obtain ⟨u, hu⟩ := hp
      simp at hu
      exact ⟨t, by rw [hu.1]⟩
  unfold FullEnv.samePrefix at he
  cases hall : r.charsFromPrefix x with
  | error e =>
    have : cs = [] := by
      cases hw : r.charsFromPrefix x (onlyVariants := true) <;> simp [hw, hall] at he <;> exact he
    subst this
    simp only [List.not_mem_nil, false_iff]
    rintro ⟨hg, hp, _⟩
    exact charsFromPrefix_error h hall hg (hstart c hg hp)
  | ok all =>
    obtain ⟨wv, hwv, hwvm, -⟩ := charsFromPrefix_vars hall
    obtain ⟨hmem, hsort, -⟩ := charsFromPrefix_ok h hall
    simp only [hwv, hall] at he
    cases hl : env.prefixLoop (x :: xs) pfx wv with
    | error e => simp [hl] at he
    | ok l =>
      simp only [hl, Except.ok.injEq] at he
      have hfert : ∀ d, d ∈ l ↔ Fertile env.toEnv r pfx (x :: xs) d := by
        intro d
        rw [prefixLoop_spec wv l hl d, hwvm, hmem]
        unfold Fertile
        constructor
        · rintro ⟨⟨⟨h1, _⟩, h2⟩, h3, h4⟩; exact ⟨h1, h3, h2, h4⟩
        · rintro ⟨h1, h3, h2, h4⟩; exact ⟨⟨⟨h1, hstart d h1 h3⟩, h2⟩, h3, h4⟩
      -- membership in `all` and being a prefix
      have hmatch : ∀ d, (d ∈ all ∧ d.isPrefixOf (x :: xs) = true) ↔
          (r.getChar d.cp = .ok d ∧ d.cp <+: x :: xs) := by
        intro d
        rw [hmem, CharObj.isPrefixOf_iff]
        constructor
        · rintro ⟨⟨h1, _⟩, h2⟩; exact ⟨h1, h2⟩
        · rintro ⟨h1, h2⟩; exact ⟨⟨h1, hstart d h1 h2⟩, h2⟩
      have hlen : ∀ d : CharObj, r.getChar d.cp = .ok d → 0 < d.len := fun d hg =>
        List.length_pos_iff.2 (getChar_ne_nil hg)
      subst he
      by_cases hnil : l = []
      · rw [if_pos hnil]
        have hno : ¬ ∃ d, Fertile env.toEnv r pfx (x :: xs) d := by
          rintro ⟨d, hd⟩; have := (hfert d).2 hd; simp [hnil] at this
        have htried : Tried env.toEnv r pfx (x :: xs) c := Or.inr (Or.inr hno)
        cases hf : all.find? (fun c => c.isPrefixOf (x :: xs)) with
        | none =>
          simp only [Option.toList_none, List.filter_nil, List.flatMap_nil, List.append_nil,
            List.not_mem_nil, false_iff]
          rintro ⟨h1, h2, _⟩
          have hm := (hmatch c).2 ⟨h1, h2⟩
          have := List.find?_eq_none.1 hf c hm.1
          exact this hm.2
        | some m =>
          obtain ⟨hmp, pre, post, hsplit, hpre⟩ := List.find?_eq_some_iff_append.1 hf
          have hm : r.getChar m.cp = .ok m ∧ m.cp <+: x :: xs :=
            (hmatch m).1 ⟨by rw [hsplit]; simp, hmp⟩
          have hlong : ∀ d, r.getChar d.cp = .ok d → d.cp <+: x :: xs → d.len ≤ m.len := by
            intro d h1 h2
            obtain ⟨h3, h4⟩ := (hmatch d).2 ⟨h1, h2⟩
            rw [hsplit] at h3 hsort
            rcases List.mem_append.1 h3 with h3 | h3
            · have := hpre d h3; simp [h4] at this
            · rcases List.mem_cons.1 h3 with rfl | h3
              · exact le_refl _
              · exact (List.pairwise_cons.1 (List.pairwise_append.1 hsort).2.1).1 d h3
          simp only [Option.toList_some, List.mem_append, List.mem_singleton, List.mem_flatMap,
            List.mem_filter, Bool.and_eq_true, decide_eq_true_eq]
          constructor
          · rintro (rfl | ⟨ch, ⟨rfl, _⟩, h3, h4, h5⟩)
            · exact ⟨hm.1, hm.2, htried⟩
            · have := (hmatch c).1 ⟨h3, h5⟩
              exact ⟨this.1, this.2, htried⟩
          · rintro ⟨h1, h2, _⟩
            rcases Nat.lt_or_ge c.len m.len with hlt | hge
            · right
              refine ⟨m, ⟨rfl, ?_⟩, ((hmatch c).2 ⟨h1, h2⟩).1, hlt, ((hmatch c).2 ⟨h1, h2⟩).2⟩
              have := hlen c h1
              simp only [CharObj.isSequence, decide_eq_true_eq]
              simp only [CharObj.len] at *
              omega
            · left
              exact eq_of_prefix_len h1 hm.1 h2 hm.2 (le_antisymm (hlong c h1 h2) hge)
      · rw [if_neg hnil]
        have hyes : ∃ d, Fertile env.toEnv r pfx (x :: xs) d := by
          obtain ⟨d, hd⟩ := List.exists_mem_of_ne_nil l hnil
          exact ⟨d, (hfert d).1 hd⟩
        simp only [List.mem_append, List.mem_flatMap, List.mem_filter, Bool.and_eq_true,
          decide_eq_true_eq, hfert]
        constructor
        · rintro (hf | ⟨ch, ⟨hch, _⟩, h3, h4, h5⟩)
          · exact ⟨hf.1, hf.2.1, Or.inl hf⟩
          · have := (hmatch c).1 ⟨h3, h5⟩
            exact ⟨this.1, this.2, Or.inr (Or.inl ⟨ch, hch, h4⟩)⟩
        · rintro ⟨h1, h2, hf | ⟨d, hd, hlt⟩ | hno⟩
          · exact Or.inl hf
          · right
            refine ⟨d, ⟨hd, ?_⟩, ((hmatch c).2 ⟨h1, h2⟩).1, hlt, ((hmatch c).2 ⟨h1, h2⟩).2⟩
            have := hlen c h1
            simp only [CharObj.isSequence, decide_eq_true_eq]
            simp only [CharObj.len] at *
            omega
          · exact absurd hyes hno

/-! ## The permutations of one character -/

/-- The permutation standing for a segment. -/
def permOf (s : Step) (f : ScriptFilter) : FullEnv.Perm :=
  ⟨s.out, (s.2.bind Variant.type).toList.map some, s.2.isSome, f⟩

/-- What `charPerms` does with a segment: the choice is allowed and `f'` is the filter that
follows. -/
def PermOK (env : FullEnv) (hide first : Bool) (f : ScriptFilter) (pfx : Seq) (s : Step)
    (rest : Seq) (f' : ScriptFilter) : Prop :=
  match s.2 with
  | some v => v ∈ s.1.getVariants ∧ env.scriptChoice hide first f v.cp = .ok (some f') ∧
      VarCtx env.toEnv pfx v rest
  | none => f' = f ∧ (hide = true → first = true ∨ env.cpInScripts s.1.cp f.base = true) ∧
      ∀ v ∈ s.1.getVariants, v.cp = s.1.cp →
        (∃ g, env.scriptChoice hide first f v.cp = .ok (some g)) → ¬ VarCtx env.toEnv pfx v rest

theorem varPerms_spec {env : FullEnv} {hide first : Bool} {f : ScriptFilter} {pfx rest : Seq}
    (c : CharObj) : ∀ (vs : List Variant) (l : List FullEnv.Perm),
    env.varPerms hide first f pfx rest vs = .ok l →
    ∀ p, p ∈ l ↔ ∃ v ∈ vs, ∃ f', env.scriptChoice hide first f v.cp = .ok (some f') ∧
      VarCtx env.toEnv pfx v rest ∧ p = permOf (c, some v) f'
  | [], l, he, p => by simp [FullEnv.varPerms] at he; simp [he]
  | v :: vs, l, he, p => by
    unfold FullEnv.varPerms at he
    cases hs : env.scriptChoice hide first f v.cp with
    | error e => simp [hs] at he
    | ok o =>
      cases o with
      | none =>
        simp only [hs] at he
        rw [varPerms_spec c vs l he p]
        simp [hs]
      | some f' =>
        simp only [hs] at he
        cases ht : env.testVar v (pfx ++ v.cp ++ rest) pfx.length with
        | error e => rw [ht] at he; simp at he
        | ok b =>
          cases b with
          | false =>
            simp only [ht] at he
            have hf : ¬ VarCtx env.toEnv pfx v rest := fun h => ctx_not_both h (testContext_false.1 ht)
            rw [varPerms_spec c vs l he p]
            simp [hf]
          | true =>
            simp only [ht] at he
            have hv : VarCtx env.toEnv pfx v rest := testContext_true.1 ht
            cases hr : env.varPerms hide first f pfx rest vs with
            | error e => simp [hr] at he
            | ok l' =>
              simp [hr] at he
              subst he
              simp only [List.mem_cons, varPerms_spec c vs l' hr p, exists_eq_or_imp, hs, hv,
                Except.ok.injEq, Option.some.injEq, exists_eq_left', true_and]
              rfl

theorem charPerms_spec {env : FullEnv} {hide first : Bool} {f : ScriptFilter} {pfx rest : Seq}
    {c : CharObj} {l : List FullEnv.Perm} (he : env.charPerms hide first f pfx rest c = .ok l)
    (p : FullEnv.Perm) :
    p ∈ l ↔ ∃ o f', PermOK env hide first f pfx (c, o) rest f' ∧ p = permOf (c, o) f' := by
  unfold FullEnv.charPerms at he
  cases hv : env.varPerms hide first f pfx rest c.getVariants with
  | error e => simp [hv] at he
  | ok l' =>
    simp only [hv, Except.ok.injEq] at he
    have hsp := varPerms_spec c c.getVariants l' hv
    have hrefl : (l'.any (fun p => decide (p.cp = c.cp))) = true ↔
        ∃ v ∈ c.getVariants, v.cp = c.cp ∧ (∃ g, env.scriptChoice hide first f v.cp = .ok (some g)) ∧
          VarCtx env.toEnv pfx v rest := by
      simp only [List.any_eq_true, decide_eq_true_eq, hsp]
      constructor
      · rintro ⟨p, ⟨v, h1, g, h2, h3, rfl⟩, h4⟩; exact ⟨v, h1, h4, ⟨g, h2⟩, h3⟩
      · rintro ⟨v, h1, h4, ⟨g, h2⟩, h3⟩; exact ⟨_, ⟨v, h1, g, h2, h3, rfl⟩, h4⟩
    have hsome : (∃ o f', PermOK env hide first f pfx (c, o) rest f' ∧ p = permOf (c, o) f') ↔
        (PermOK env hide first f pfx (c, none) rest f ∧ p = permOf (c, none) f) ∨ p ∈ l' := by
      rw [hsp]
      constructor
      · rintro ⟨o, f', h1, h2⟩
        cases o with
        | none => left; have := h1.1; subst this; exact ⟨h1, h2⟩
        | some v => right; exact ⟨v, h1.1, f', h1.2.1, h1.2.2, h2⟩
      · rintro (⟨h1, h2⟩ | ⟨v, h1, f', h2, h3, h4⟩)
        · exact ⟨none, f, h1, h2⟩
        · exact ⟨some v, f', ⟨h1, h2, h3⟩, h4⟩
    rw [hsome, ← he]
    have hcond : (!(l'.any (fun p => decide (p.cp = c.cp))) &&
        (!hide || first || env.cpInScripts c.cp f.base)) = true ↔
        PermOK env hide first f pfx (c, none) rest f := by
      simp only [PermOK, true_and, Bool.and_eq_true]
      rw [and_comm]
      apply and_congr
      · cases hide <;> cases first <;> simp
      · rw [Bool.not_eq_true', ← Bool.not_eq_true, hrefl]
        constructor
        · intro h v h1 h2 h3 h4; exact h ⟨v, h1, h2, h3, h4⟩
        · rintro h ⟨v, h1, h2, h3, h4⟩; exact h v h1 h2 h3 h4
    by_cases hc : PermOK env hide first f pfx (c, none) rest f
    · rw [if_pos (hcond.2 hc), List.mem_cons]
      simp only [hc, true_and]
      rfl
    · rw [if_neg (fun h => hc (hcond.1 h))]
      simp [hc]

/-! ## The whole generation -/

/-- The chain of choices made by the generation. -/
def Chain (env : FullEnv) (r : Repertoire) (hide : Bool) :
    Bool → ScriptFilter → Seq → List Step → Prop
  | _, _, _, [] => True
  | first, f, pfx, s :: ss => r.getChar s.1.cp = .ok s.1 ∧
      TriedStep env.toEnv r pfx s (origOf ss) ∧
      ∃ f', PermOK env hide first f pfx s (origOf ss) f' ∧ Chain env r hide false f' (pfx ++ s.out) ss

/-- Something can have changed: a segment is replaced, or the last one has variants. -/
def Moves (ss : List Step) : Prop :=
  (∃ s ∈ ss, s.2.isSome = true) ∨ ∃ pre s, ss = pre ++ [s] ∧ s.1.hasVariant = true

theorem moves_cons {s : Step} {ss : List Step} (hss : ss ≠ []) :
    Moves (s :: ss) ↔ s.2.isSome = true ∨ Moves ss := by
  unfold Moves
  simp only [List.mem_cons, exists_eq_or_imp, or_assoc]
  apply or_congr_right
  apply or_congr_right
  constructor
  · rintro ⟨pre, t, h, ht⟩
    cases pre with
    | nil => simp at h; exact absurd h.2 hss
    | cons a pre => simp at h; exact ⟨pre, t, h.2, ht⟩
  · rintro ⟨pre, t, h, ht⟩; exact ⟨s :: pre, t, by simp [h], ht⟩

theorem hasVariant_of_mem {c : CharObj} {v : Variant} (h : v ∈ c.getVariants) : c.hasVariant = true := by
  unfold CharObj.getVariants at h
  simp only [List.mem_flatMap, mem_sortAsc] at h
  obtain ⟨k, hk, _⟩ := h
  unfold CharObj.hasVariant
  cases hv : c.vars with
  | nil => simp [hv] at hk
  | cons a l => simp

theorem flatMapE_ok {α β : Type} {f : α → Except Err (List β)} : ∀ {l : List α} {bs : List β},
    FullEnv.flatMapE f l = .ok bs →
      (∀ a ∈ l, ∃ b, f a = .ok b) ∧ ∀ b, b ∈ bs ↔ ∃ a ∈ l, ∃ c, f a = .ok c ∧ b ∈ c
  | [], bs, he => by simp [FullEnv.flatMapE] at he; simp [he]
  | a :: l, bs, he => by
    unfold FullEnv.flatMapE at he
    cases hf : f a with
    | error e => simp [hf] at he
    | ok x =>
      simp only [hf] at he
      cases hr : FullEnv.flatMapE f l with
      | error e => simp [hr] at he
      | ok bs' =>
        simp [hr] at he
        subst he
        obtain ⟨h1, h2⟩ := flatMapE_ok hr
        refine ⟨?_, ?_⟩
        · intro b hb
          rcases List.mem_cons.1 hb with rfl | hb
          · exact ⟨x, hf⟩
          · exact h1 b hb
        · intro b
          simp only [List.mem_append, List.mem_cons, exists_eq_or_imp, h2, hf, Except.ok.injEq,
            exists_eq_left']

theorem genLoop_spec {env : FullEnv} {r : Repertoire} (h : WF r) (hide : Bool) (fuel : Nat) :
    ∀ (first : Bool) (f : ScriptFilter) (pfx : Seq) (hasVar : Bool) (label : Seq)
      (gs : List FullEnv.Gen), label ≠ [] → label.length ≤ fuel →
      env.genLoop r hide fuel first f pfx hasVar label = .ok gs →
      ∀ g, g ∈ gs ↔ ∃ ss, origOf ss = label ∧ Chain env r hide first f pfx ss ∧
        (hasVar = true ∨ Moves ss) ∧ g = build ss := by
  induction fuel with
  | zero => intro first f pfx hasVar label gs hne hl; simp at hl; exact absurd hl hne
  | succ fuel ih =>
    intro first f pfx hasVar label gs hne hl he g
    cases label with
    | nil => exact absurd rfl hne
    | cons x xs =>
      unfold FullEnv.genLoop at he
      cases hsp : env.samePrefix r x xs pfx with
      | error e => simp [hsp] at he
      | ok cs =>
        simp only [hsp] at he
        obtain ⟨hdef, hmem⟩ := flatMapE_ok he
        have hcs := samePrefix_spec h hsp
        rw [hmem g]
        constructor
        · rintro ⟨c, hc, l, hfc, hg⟩
          obtain ⟨hgc, hpc, htr⟩ := (hcs c).1 hc
          have hcl : 0 < c.len := List.length_pos_iff.2 (getChar_ne_nil hgc)
          have hcat : c.cp ++ (x :: xs).drop c.len = x :: xs := by
            obtain ⟨u, hu⟩ := hpc
            rw [← hu, CharObj.len, List.drop_left]
          cases hp : env.charPerms hide first f pfx ((x :: xs).drop c.len) c with
          | error e => simp [hp] at hfc
          | ok perms =>
            simp only [hp] at hfc
            by_cases hlt : (x :: xs).length > c.len
            · rw [if_pos hlt] at hfc
              obtain ⟨_, hmem2⟩ := flatMapE_ok hfc
              obtain ⟨p, hpp, l2, hf2, hg2⟩ := (hmem2 g).1 hg
              obtain ⟨o, f', hok, rfl⟩ := (charPerms_spec hp p).1 hpp
              cases hrec : env.genLoop r hide fuel false (permOf (c, o) f').filter
                  (pfx ++ (permOf (c, o) f').cp) ((permOf (c, o) f').isVar || hasVar)
                  ((x :: xs).drop c.len) with
              | error e => simp only [hrec] at hf2; cases hf2
              | ok gs2 =>
                simp only [hrec, Except.ok.injEq] at hf2
                subst hf2
                obtain ⟨g2, hg3, rfl⟩ := List.mem_map.1 hg2
                have hne2 : (x :: xs).drop c.len ≠ [] := by rw [Ne, List.drop_eq_nil_iff]; omega
                obtain ⟨ss, ho, hch, hmv, rfl⟩ := (ih _ _ _ _ _ gs2 hne2 (by
                  rw [List.length_drop]; simp only [List.length_cons] at hl ⊢; omega) hrec g2).1 hg3
                have hss : ss ≠ [] := by rintro rfl; exact hne2 ho.symm
                refine ⟨(c, o) :: ss, ?_, ⟨hgc, ?_, f', ?_, hch⟩, ?_, ?_⟩
                · show c.cp ++ origOf ss = _
                  rw [ho, hcat]
                · show Tried _ _ _ (c.cp ++ origOf ss) c
                  rw [ho, hcat]; exact htr
                · rw [ho]; exact hok
                · rw [moves_cons hss]
                  simp only [permOf, Bool.or_eq_true] at hmv
                  tauto
                · rfl
            · rw [if_neg hlt] at hfc
              have hnil : (x :: xs).drop c.len = [] := by rw [List.drop_eq_nil_iff]; omega
              rw [hnil] at hcat hp
              by_cases hv : (hasVar || c.hasVariant) = true
              · rw [if_pos hv, Except.ok.injEq] at hfc
                subst hfc
                obtain ⟨p, hpp, rfl⟩ := List.mem_map.1 hg
                obtain ⟨o, f', hok, rfl⟩ := (charPerms_spec hp p).1 hpp
                refine ⟨[(c, o)], ?_, ⟨hgc, ?_, f', hok, trivial⟩, ?_, ?_⟩
                · simpa [origOf] using hcat
                · show Tried _ _ _ (c.cp ++ []) c
                  rw [hcat]; exact htr
                · rw [Bool.or_eq_true] at hv
                  rcases hv with hv | hv
                  · exact Or.inl hv
                  · exact Or.inr (Or.inr ⟨[], _, rfl, hv⟩)
                · simp [build, permOf]
              · rw [if_neg hv, Except.ok.injEq] at hfc
                subst hfc; simp at hg
        · rintro ⟨ss, ho, hch, hmv, rfl⟩
          cases ss with
          | nil => simp [origOf] at ho
          | cons s ss =>
            obtain ⟨c, o⟩ := s
            obtain ⟨hgc, htr, f', hok, hch⟩ := hch
            have ho : c.cp ++ origOf ss = x :: xs := ho
            have htr : Tried _ _ _ (c.cp ++ origOf ss) c := htr
            rw [ho] at htr
            have hpc : c.cp <+: x :: xs := ⟨_, ho⟩
            have hcl : 0 < c.len := List.length_pos_iff.2 (getChar_ne_nil hgc)
            have hdrop : (x :: xs).drop c.len = origOf ss := by
              rw [← ho, CharObj.len, List.drop_left]
            have hc : c ∈ cs := (hcs c).2 ⟨hgc, hpc, htr⟩
            obtain ⟨l, hfc⟩ := hdef c hc
            refine ⟨c, hc, l, hfc, ?_⟩
            cases hp : env.charPerms hide first f pfx ((x :: xs).drop c.len) c with
            | error e => simp [hp] at hfc
            | ok perms =>
              simp only [hp] at hfc
              have hpm : permOf (c, o) f' ∈ perms := by
                rw [hdrop] at hp
                exact (charPerms_spec hp _).2 ⟨o, f', hok, rfl⟩
              by_cases hlt : (x :: xs).length > c.len
              · rw [if_pos hlt] at hfc
                obtain ⟨hdef2, hmem2⟩ := flatMapE_ok hfc
                rw [hmem2]
                obtain ⟨l2, hf2⟩ := hdef2 _ hpm
                refine ⟨_, hpm, l2, hf2, ?_⟩
                cases hrec : env.genLoop r hide fuel false (permOf (c, o) f').filter
                    (pfx ++ (permOf (c, o) f').cp) ((permOf (c, o) f').isVar || hasVar)
                    ((x :: xs).drop c.len) with
                | error e => simp only [hrec] at hf2; cases hf2
                | ok gs2 =>
                  simp only [hrec, Except.ok.injEq] at hf2
                  subst hf2
                  have hne2 : (x :: xs).drop c.len ≠ [] := by rw [Ne, List.drop_eq_nil_iff]; omega
                  have hss : ss ≠ [] := by rintro rfl; rw [hdrop] at hne2; exact hne2 rfl
                  refine List.mem_map.2 ⟨build ss, (ih _ _ _ _ _ gs2 hne2 (by
                    rw [List.length_drop]; simp only [List.length_cons] at hl ⊢; omega) hrec _).2
                    ⟨ss, hdrop.symm, hch, ?_, rfl⟩, rfl⟩
                  rw [moves_cons hss] at hmv
                  simp only [permOf, Bool.or_eq_true]
                  tauto
              · rw [if_neg hlt] at hfc
                have hnil : origOf ss = [] := by rw [← hdrop, List.drop_eq_nil_iff]; omega
                have hss : ss = [] := by
                  cases ss with
                  | nil => rfl
                  | cons t ss =>
                    have h0 : t.1.cp ++ origOf ss = [] := hnil
                    have h1 := getChar_ne_nil hch.1
                    simp at h0; exact absurd h0.1 h1
                subst hss
                have hv : (hasVar || c.hasVariant) = true := by
                  rw [Bool.or_eq_true]
                  rcases hmv with hmv | ⟨s, hs, hso⟩ | ⟨pre, s, hs, hsv⟩
                  · exact Or.inl hmv
                  · simp at hs; subst hs
                    cases o with
                    | none => simp at hso
                    | some v => exact Or.inr (hasVariant_of_mem hok.1)
                  · cases pre with
                    | nil => simp at hs; subst hs; exact Or.inr hsv
                    | cons a pre => simp at hs
                rw [if_pos hv, Except.ok.injEq] at hfc
                subst hfc
                refine List.mem_map.2 ⟨_, hpm, ?_⟩
                simp [build, permOf]

end Lgr.Props

namespace Lgr.Props
open Repertoire

/-- The chain without script filtering, as conditions on each segment. -/
theorem chain_plain {env : FullEnv} {r : Repertoire} {f : ScriptFilter} :
    ∀ {first : Bool} {pfx : Seq} {ss : List Step},
      Chain env r false first f pfx ss ↔ (∀ s ∈ ss, r.getChar s.1.cp = .ok s.1) ∧
        AllSteps (TriedStep env.toEnv r) pfx ss ∧ AllSteps (ValidStep env.toEnv) pfx ss ∧
        AllSteps (KeptStep env.toEnv) pfx ss
  | _, _, [] => by simp [Chain, AllSteps]
  | first, pfx, s :: ss => by
    obtain ⟨c, o⟩ := s
    have hsc : ∀ vcp, env.scriptChoice false first f vcp = .ok (some f) := fun _ => rfl
    have hp : ∀ f', PermOK env false first f pfx (c, o) (origOf ss) f' ↔
        f' = f ∧ ValidStep env.toEnv pfx (c, o) (origOf ss) ∧
          KeptStep env.toEnv pfx (c, o) (origOf ss) := by
      intro f'
      cases o with
      | none => simp [PermOK, ValidStep, KeptStep, hsc]
      | some v =>
        simp only [PermOK, ValidStep, KeptStep, hsc, Except.ok.injEq, Option.some.injEq]
        constructor
        · rintro ⟨h1, rfl, h3⟩; exact ⟨rfl, by rintro v rfl; exact ⟨h1, h3⟩, by simp⟩
        · rintro ⟨rfl, h2, _⟩; exact ⟨(h2 v rfl).1, rfl, (h2 v rfl).2⟩
    simp only [Chain, AllSteps, hp, List.forall_mem_cons]
    constructor
    · rintro ⟨h1, h2, f', ⟨rfl, h3, h4⟩, h5⟩
      obtain ⟨a, b, c, d⟩ := chain_plain.1 h5
      exact ⟨⟨h1, a⟩, ⟨h2, b⟩, ⟨h3, c⟩, ⟨h4, d⟩⟩
    · rintro ⟨⟨h1, a⟩, ⟨h2, b⟩, ⟨h3, c⟩, ⟨h4, d⟩⟩
      exact ⟨h1, h2, f, ⟨rfl, h3, h4⟩, chain_plain.2 ⟨a, b, c, d⟩⟩

/-- With or without script filtering, the segments used are stored, tried and valid. -/
theorem chain_sound {env : FullEnv} {r : Repertoire} {hide : Bool} :
    ∀ {first : Bool} {f : ScriptFilter} {pfx : Seq} {ss : List Step},
      Chain env r hide first f pfx ss → (∀ s ∈ ss, r.getChar s.1.cp = .ok s.1) ∧
        AllSteps (TriedStep env.toEnv r) pfx ss ∧ AllSteps (ValidStep env.toEnv) pfx ss
  | _, _, _, [], _ => by simp [AllSteps]
  | first, f, pfx, (c, o) :: ss, ⟨h1, h2, f', h3, h4⟩ => by
    obtain ⟨a, b, d⟩ := chain_sound h4
    refine ⟨by simpa using ⟨h1, fun c' o' => a (c', o')⟩, ⟨h2, b⟩, ⟨?_, d⟩⟩
    rintro v hv
    simp only at hv
    subst hv
    exact ⟨h3.1, h3.2.2⟩

open Classical in
/-- Replace each kept segment that has a valid reflexive variant by that variant: the label does
not change. -/
noncomputable def useReflexive (env : Env) : Seq → List Step → List Step
  | _, [] => []
  | pfx, s :: ss =>
    (if hx : s.2 = none ∧ ∃ v ∈ s.1.getVariants, v.cp = s.1.cp ∧ VarCtx env pfx v (origOf ss)
      then (s.1, some hx.2.choose) else s) :: useReflexive env (pfx ++ s.out) ss

theorem useReflexive_spec {env : Env} {r : Repertoire} : ∀ {pfx : Seq} {ss : List Step},
    AllSteps (ValidStep env) pfx ss → AllSteps (TriedStep env r) pfx ss →
    (useReflexive env pfx ss).map (fun s => s.1) = ss.map (fun s => s.1) ∧
    outOf (useReflexive env pfx ss) = outOf ss ∧
    AllSteps (ValidStep env) pfx (useReflexive env pfx ss) ∧
    AllSteps (TriedStep env r) pfx (useReflexive env pfx ss) ∧
    AllSteps (KeptStep env) pfx (useReflexive env pfx ss) ∧
    ((∃ s ∈ ss, s.2.isSome = true) → ∃ s ∈ useReflexive env pfx ss, s.2.isSome = true)
  | _, [], _, _ => by simp [useReflexive, AllSteps, outOf]
  | pfx, s :: ss, ⟨hv, hvs⟩, ⟨ht, hts⟩ => by
    obtain ⟨i1, i2, i3, i4, i5, i6⟩ := useReflexive_spec hvs hts
    have horig : origOf (useReflexive env (pfx ++ s.out) ss) = origOf ss := by
      have : ∀ l : List Step, origOf l = (l.map (fun s => s.1)).flatMap CharObj.cp := by
        intro l; simp [origOf, List.flatMap_map]
      rw [this, i1, ← this]
    unfold useReflexive
    by_cases hx : s.2 = none ∧ ∃ v ∈ s.1.getVariants, v.cp = s.1.cp ∧ VarCtx env pfx v (origOf ss)
    · rw [dif_pos hx]
      have hc := hx.2.choose_spec
      have hout : Step.out (s.1, some hx.2.choose) = s.out := by
        simp only [Step.out, hx.1, hc.2.1]
      refine ⟨by simp [i1], ?_, ⟨?_, by rw [hout]; exact i3⟩, ⟨?_, by rw [hout]; exact i4⟩,
        ⟨by simp [KeptStep], by rw [hout]; exact i5⟩, ?_⟩
      · show Step.out _ ++ outOf _ = s.out ++ outOf ss
        rw [hout, i2]
      · intro v hv'
        simp only [Option.some.injEq] at hv'
        subst hv'
        rw [horig]
        exact ⟨hc.1, hc.2.2⟩
      · show Tried env r pfx (s.1.cp ++ origOf _) s.1
        rw [horig]; exact ht
      · intro _; exact ⟨_, List.mem_cons_self, rfl⟩
    · rw [dif_neg hx]
      refine ⟨by simp [i1], ?_, ⟨by rw [horig]; exact hv, i3⟩, ⟨by rw [horig]; exact ht, i4⟩,
        ⟨?_, i5⟩, ?_⟩
      · show s.out ++ outOf _ = s.out ++ outOf ss
        rw [i2]
      · intro hn v h1 h2 h3
        rw [horig] at h3
        exact hx ⟨hn, v, h1, h2, h3⟩
      · rintro ⟨t, htm, hsome⟩
        rcases List.mem_cons.1 htm with rfl | htm
        · exact ⟨t, List.mem_cons_self, hsome⟩
        · obtain ⟨u, hu, hus⟩ := i6 ⟨t, htm, hsome⟩
          exact ⟨u, List.mem_cons_of_mem _ hu, hus⟩

theorem moves_congr {ss ts : List Step} (h : ss.map (fun s => s.1) = ts.map (fun s => s.1))
    (hs : (∃ s ∈ ss, s.2.isSome = true) → ∃ s ∈ ts, s.2.isSome = true) (hm : Moves ss) : Moves ts := by
  rcases hm with hm | ⟨pre, s, rfl, hv⟩
  · exact Or.inl (hs hm)
  · right
    simp only [List.map_append, List.map_cons, List.map_nil] at h
    obtain ⟨a, b, rfl, h1, h2⟩ := List.map_eq_append_iff.1 h.symm
    obtain ⟨t, u, rfl, h3, h4⟩ := List.map_eq_cons_iff.1 h2
    rw [List.map_eq_nil_iff] at h4
    subst h4
    exact ⟨a, t, rfl, by rw [h3]; exact hv⟩

theorem genVariants_nil {env : FullEnv} {r : Repertoire} {hide : Bool} :
    env.genVariants r hide [] = .ok [] := rfl

end Lgr.Props

namespace Lgr.Props.C22
open Repertoire

/-- Every generated item comes from a rewriting of the label: segments that are repertoire
characters and concatenate to the label, each kept or replaced by a variant in valid context; its
code points are the rewritten label, its types exactly those of the mappings used, and
only-variants holds iff every segment was replaced. Holds with and without script hiding. -/
theorem generated_sound {env : FullEnv} {r : Repertoire} (h : WF r) {hide : Bool} {label : Seq}
    {gs : List FullEnv.Gen} (he : env.genVariants r hide label = .ok gs) {g : FullEnv.Gen}
    (hg : g ∈ gs) :
    ∃ ss, Rewrites env.toEnv r label ss ∧ g.cps = outOf ss ∧ g.chars = ss.map Step.out ∧
      (∀ t, t ∈ g.disp ↔ ∃ u, t = some u ∧ HasType ss u) ∧
      (g.only = true ↔ ∀ s ∈ ss, s.2.isSome) := by
  by_cases hl : label = []
  · subst hl
    rw [genVariants_nil] at he
    cases he; simp at hg
  · obtain ⟨ss, ho, hch, _, rfl⟩ := (genLoop_spec h hide _ _ _ _ _ _ _ hl (le_refl _) he g).1 hg
    obtain ⟨h1, _, h3⟩ := chain_sound hch
    exact ⟨ss, ⟨ho, h1, h3⟩, build_cps ss, build_chars ss, build_disp ss, build_only ss⟩

/-- Exact set of generated items without script hiding. -/
theorem generated_exact {env : FullEnv} {r : Repertoire} (h : WF r) {label : Seq} (hl : label ≠ [])
    {gs : List FullEnv.Gen} (he : env.genVariants r false label = .ok gs) (g : FullEnv.Gen) :
    g ∈ gs ↔ ∃ ss, Rewrites env.toEnv r label ss ∧ AllSteps (TriedStep env.toEnv r) [] ss ∧
      AllSteps (KeptStep env.toEnv) [] ss ∧ Moves ss ∧ g = build ss := by
  rw [genLoop_spec h false _ _ _ _ _ _ _ hl (le_refl _) he g]
  constructor
  · rintro ⟨ss, ho, hch, hm, rfl⟩
    obtain ⟨h1, h2, h3, h4⟩ := chain_plain.1 hch
    exact ⟨ss, ⟨ho, h1, h3⟩, h2, h4, by simpa using hm, rfl⟩
  · rintro ⟨ss, ⟨ho, h1, h3⟩, h2, h4, hm, rfl⟩
    exact ⟨ss, ho, chain_plain.2 ⟨h1, h2, h3, h4⟩, Or.inr hm, rfl⟩

/-- Non-vacuity: one conditional variant, one typed variant, one reflexive variant. -/
example : (FullEnv.mk ⟨fun _ _ _ i => .ok (decide (i = 0))⟩ (fun _ _ => .ok true)
      (fun _ => "Latin")).genVariants
    (run {} [.addChar [97] {}, .addChar [98] {},
      .addVariant [97] { cp := [120], type := some "blocked", whenR := some "start" },
      .addVariant [98] { cp := [98], type := some "r-b" },
      .addVariant [98] { cp := [121], whenR := some "start" }]) false [97, 98]
    = .ok [⟨[97, 98], [some "r-b"], false, [[97], [98]]⟩,
        ⟨[120, 98], [some "r-b", some "blocked"], true, [[120], [98]]⟩] := by decide +kernel

end Lgr.Props.C22

namespace Lgr.Props.C23
open Repertoire

/-- The property at full strength. -/
def Complete : Prop :=
  ∀ (env : FullEnv) (ops : List Op) (label : Seq) (p : Env.Prelim) (gs : List FullEnv.Gen)
    (ss : List Step),
    env.prelim (run {} ops) label = .ok p → p.ok = true →
    env.genVariants (run {} ops) false label = .ok gs →
    Rewrites env.toEnv (run {} ops) label ss → (∃ s ∈ ss, s.2.isSome = true) →
    ∃ g ∈ gs, g.cps = outOf ss

/-- Full completeness is false: entries `a` (variant `x`), `ab` (no variant) and `c`
(variant `y`). The label `abc` is accepted as `ab`, `c`, but the generation only tries `a`, which
has variants, and then fails on `b`, so `aby` is missed. -/
theorem variant_missed : ¬ Complete := by
  intro h
  have := h ⟨⟨fun _ _ _ _ => .ok true⟩, fun _ _ => .ok true, fun _ => "Latin"⟩
    [.addChar [97] {}, .addChar [97, 98] {}, .addChar [99] {},
      .addVariant [97] { cp := [120] }, .addVariant [99] { cp := [121] }] [97, 98, 99] _ _
    [({ cp := [97, 98] }, none),
      ({ cp := [99], vars := [([121], [{ cp := [121] }])] }, some { cp := [121] })]
    (by rfl) (by rfl) (by rfl)
    ⟨rfl, by simp; exact ⟨by rfl, by rfl⟩,
      ⟨by simp [ValidStep], ⟨by
        intro v hv
        simp only [Option.some.injEq] at hv
        subst hv
        exact ⟨by decide, by simp [VarCtx, CtxHolds]⟩, trivial⟩⟩⟩ (by simp)
  simp at this

/-- A sequence extending a character with variants has variants itself and no context rule. -/
def VariantsExtend (r : Repertoire) : Prop :=
  ∀ c d, r.getChar c.cp = .ok c → r.getChar d.cp = .ok d → d.cp <+: c.cp → d.cp ≠ c.cp →
    d.hasVariant = true → c.hasVariant = true ∧ c.attrs.whenR = none ∧ c.attrs.notWhenR = none

theorem tried_of_extend {env : Env} {r : Repertoire} (hx : VariantsExtend r) {pfx label : Seq}
    {c : CharObj} (hg : r.getChar c.cp = .ok c) (hp : c.cp <+: label) : Tried env r pfx label c := by
  by_cases hf : ∃ d, Fertile env r pfx label d
  · obtain ⟨d, hd⟩ := hf
    rcases Nat.lt_trichotomy c.len d.len with hlt | heq | hgt
    · exact Or.inr (Or.inl ⟨d, hd, hlt⟩)
    · rw [eq_of_prefix_len hg hd.1 hp hd.2.1 heq]
      exact Or.inl hd
    · left
      have hdc : d.cp <+: c.cp := by
        rcases List.prefix_or_prefix_of_prefix hd.2.1 hp with h | h
        · exact h
        · have := h.length_le; simp only [CharObj.len] at hgt; omega
      obtain ⟨h1, h2, h3⟩ := hx c d hg hd.1 hdc (by
        intro h; simp only [CharObj.len, h] at hgt; omega) hd.2.2.1
      exact ⟨hg, hp, h1, by simp [CtxHolds, h2, h3]⟩
  · exact Or.inr (Or.inr hf)

theorem allTried {env : Env} {r : Repertoire} (hx : VariantsExtend r) :
    ∀ {pfx : Seq} {ss : List Step}, (∀ s ∈ ss, r.getChar s.1.cp = .ok s.1) →
      AllSteps (TriedStep env r) pfx ss
  | _, [], _ => trivial
  | pfx, s :: ss, h => ⟨tried_of_extend hx (h s List.mem_cons_self) ⟨_, rfl⟩,
      allTried hx (fun t ht => h t (List.mem_cons_of_mem _ ht))⟩

/-- Completeness of the generation: every rewriting of the label that replaces a segment and whose
segments are all tried is produced (as a label). -/
theorem produces_tried {env : FullEnv} {r : Repertoire} (h : WF r) {label : Seq}
    {gs : List FullEnv.Gen} (he : env.genVariants r false label = .ok gs) {ss : List Step}
    (hr : Rewrites env.toEnv r label ss) (ht : AllSteps (TriedStep env.toEnv r) [] ss)
    (hm : Moves ss) : ∃ g ∈ gs, g.cps = outOf ss := by
  have hl : label ≠ [] := by
    rintro rfl
    have hnil : ss = [] := by
      cases ss with
      | nil => rfl
      | cons s ss =>
        have h0 : s.1.cp ++ origOf ss = [] := hr.concat
        simp at h0
        exact absurd h0.1 (getChar_ne_nil (hr.stored s List.mem_cons_self))
    subst hnil
    rcases hm with ⟨s, hs, _⟩ | ⟨pre, s, hs, _⟩
    · simp at hs
    · simp at hs
  obtain ⟨h1, h2, h3, h4, h5, h6⟩ := useReflexive_spec hr.valid ht
  have horig : ∀ l : List Step, origOf l = (l.map (fun s => s.1)).flatMap CharObj.cp := by
    intro l; simp [origOf, List.flatMap_map]
  refine ⟨build (useReflexive env.toEnv [] ss), (C22.generated_exact h hl he _).2
    ⟨_, ⟨?_, ?_, h3⟩, h4, h5, moves_congr h1.symm h6 hm, rfl⟩, ?_⟩
  · rw [horig, h1, ← horig]; exact hr.concat
  · intro s hs
    have : s.1 ∈ ss.map (fun s => s.1) := by rw [← h1]; exact List.mem_map.2 ⟨s, hs, rfl⟩
    obtain ⟨t, ht, hts⟩ := List.mem_map.1 this
    rw [← hts]; exact hr.stored t ht
  · rw [build_cps, h2]

/-- Completeness when sequences extending a character with variants have variants and no context
rule of their own (in particular for repertoires of single code points, and prefix free ones):
every rewriting that replaces at least one segment is produced. Missing for the full property:
other repertoires, where it is false. -/
theorem no_variant_missed_partial {env : FullEnv} {r : Repertoire} (h : WF r)
    (hx : VariantsExtend r) {label : Seq}
    {gs : List FullEnv.Gen} (he : env.genVariants r false label = .ok gs) {ss : List Step}
    (hr : Rewrites env.toEnv r label ss) (hm : ∃ s ∈ ss, s.2.isSome = true) :
    ∃ g ∈ gs, g.cps = outOf ss :=
  produces_tried h he hr (allTried hx hr.stored) (Or.inl hm)

/-- A prefix free repertoire satisfies the hypothesis. -/
theorem extend_of_prefixFree {r : Repertoire} (h : C14.PrefixFree r) : VariantsExtend r := by
  intro c d hc hd hp hne
  exact absurd (congrArg CharObj.cp (h d c hd hc hp)) hne

/-- Non-vacuity: two variants for `a`, one for `b`, label `ab`: five new labels and the label. -/
example : ((FullEnv.mk ⟨fun _ _ _ _ => .ok true⟩ (fun _ _ => .ok true) (fun _ => "Latin")).genVariants
    (run {} [.addChar [97] {}, .addChar [98] {}, .addVariant [97] { cp := [120], type := some "blocked" },
      .addVariant [97] { cp := [121] }, .addVariant [98] { cp := [122] }]) false [97, 98]).map
      (List.map FullEnv.Gen.cps)
    = .ok [[97, 98], [97, 122], [120, 98], [120, 122], [121, 98], [121, 122]] := by decide +kernel

end Lgr.Props.C23

namespace Lgr.Props
open Repertoire

theorem stored_varWF {r : Repertoire} (h : WF r) {c : CharObj} (hg : r.getChar c.cp = .ok c) :
    c.VarWF := by
  exact (lookup_charWF h (getChar_ok.1 hg)).varWF

/-- Variants of a stored character are not empty. -/
theorem variant_ne_nil {r : Repertoire} (h : WF r) {c : CharObj} (hg : r.getChar c.cp = .ok c)
    {v : Variant} (hv : v ∈ c.getVariants) : v.cp ≠ [] := by
  have hw := stored_varWF h hg
  obtain ⟨vs, h1, _⟩ := (CharObj.mem_getVariants hw v).1 hv
  exact (hw.nonempty _ (mem_of_dget h1)).2

/-! ## When the rules are defined, generation does not raise -/

theorem prefixLoop_defined {env : FullEnv} {r : Repertoire} (hd : RulesDefined env.toEnv r)
    (label pfx : Seq) : ∀ cs : List CharObj, (∀ c ∈ cs, r.getChar c.cp = .ok c) →
    ∃ l, env.prefixLoop label pfx cs = .ok l
  | [], _ => ⟨_, rfl⟩
  | c :: cs, h => by
    obtain ⟨l, hl⟩ := prefixLoop_defined hd label pfx cs (fun d hc => h d (List.mem_cons_of_mem _ hc))
    unfold FullEnv.prefixLoop
    split
    · exact ⟨l, hl⟩
    · obtain ⟨b, hb⟩ := testChar_defined hd (h c List.mem_cons_self)
        (pfx ++ c.cp ++ label.drop c.len) pfx.length
      simp only [hb, hl]
      exact ⟨_, rfl⟩

theorem samePrefix_defined {env : FullEnv} {r : Repertoire} (h : WF r)
    (hd : RulesDefined env.toEnv r) (x : Nat) (xs pfx : Seq) :
    ∃ cs, env.samePrefix r x xs pfx = .ok cs := by
  unfold FullEnv.samePrefix
  cases hall : r.charsFromPrefix x with
  | error e => cases hw : r.charsFromPrefix x (onlyVariants := true) <;> exact ⟨_, rfl⟩
  | ok all =>
    obtain ⟨wv, hwv, hm, -⟩ := charsFromPrefix_vars hall
    obtain ⟨hmem, -, -⟩ := charsFromPrefix_ok h hall
    obtain ⟨l, hl⟩ := prefixLoop_defined hd (x :: xs) pfx wv
      (fun c hc => ((hmem c).1 ((hm c).1 hc).1).1)
    simp only [hwv, hl]
    exact ⟨_, rfl⟩

theorem scriptChoice_defined {env : FullEnv} {hide first : Bool} {f : ScriptFilter} {vcp : Seq}
    (hv : vcp ≠ []) : ∃ o, env.scriptChoice hide first f vcp = .ok o := by
  unfold FullEnv.scriptChoice
  cases vcp with
  | nil => exact absurd rfl hv
  | cons y t => simp only []; split_ifs <;> exact ⟨_, rfl⟩

theorem charPerms_defined {env : FullEnv} {r : Repertoire} (h : WF r)
    (hd : RulesDefined env.toEnv r) {hide first : Bool} {f : ScriptFilter} {pfx rest : Seq}
    {c : CharObj} (hg : r.getChar c.cp = .ok c) :
    ∃ l, env.charPerms hide first f pfx rest c = .ok l := by
  have key : ∀ vs : List Variant, (∀ v ∈ vs, v ∈ c.getVariants) →
      ∃ l, env.varPerms hide first f pfx rest vs = .ok l := by
    intro vs
    induction vs with
    | nil => intro _; exact ⟨_, rfl⟩
    | cons v vs ih =>
      intro hv
      obtain ⟨l, hl⟩ := ih (fun w hw => hv w (List.mem_cons_of_mem _ hw))
      have hv0 := hv v List.mem_cons_self
      obtain ⟨o, ho⟩ := scriptChoice_defined (env := env) (hide := hide) (first := first) (f := f)
        (variant_ne_nil h hg hv0)
      unfold FullEnv.varPerms
      cases o with
      | none => simp only [ho]; exact ⟨l, hl⟩
      | some f' =>
        obtain ⟨b, hb⟩ := testVar_defined hd hg hv0 (pfx ++ v.cp ++ rest) pfx.length
        simp only [ho]
        rw [hb]
        cases b with
        | false => exact ⟨l, hl⟩
        | true => simp only [hl]; exact ⟨_, rfl⟩
  obtain ⟨l, hl⟩ := key c.getVariants (fun v hv => hv)
  unfold FullEnv.charPerms
  simp only [hl]
  exact ⟨_, rfl⟩

theorem flatMapE_defined {α β : Type} {f : α → Except Err (List β)} : ∀ {l : List α},
    (∀ a ∈ l, ∃ b, f a = .ok b) → ∃ bs, FullEnv.flatMapE f l = .ok bs
  | [], _ => ⟨_, rfl⟩
  | a :: l, h => by
    obtain ⟨b, hb⟩ := h a List.mem_cons_self
    obtain ⟨bs, hbs⟩ := flatMapE_defined (fun x hx => h x (List.mem_cons_of_mem _ hx))
    unfold FullEnv.flatMapE
    simp only [hb, hbs]
    exact ⟨_, rfl⟩

theorem genLoop_defined {env : FullEnv} {r : Repertoire} (h : WF r)
    (hd : RulesDefined env.toEnv r) (hide : Bool) : ∀ (fuel : Nat) (first : Bool)
    (f : ScriptFilter) (pfx : Seq) (hasVar : Bool) (label : Seq),
    ∃ gs, env.genLoop r hide fuel first f pfx hasVar label = .ok gs
  | 0, _, _, _, _, label => by cases label <;> exact ⟨_, rfl⟩
  | fuel + 1, first, f, pfx, hasVar, [] => ⟨_, rfl⟩
  | fuel + 1, first, f, pfx, hasVar, x :: xs => by
    obtain ⟨cs, hcs⟩ := samePrefix_defined h hd x xs pfx
    unfold FullEnv.genLoop
    simp only [hcs]
    apply flatMapE_defined
    intro c hc
    obtain ⟨hg, _⟩ := (samePrefix_spec h hcs c).1 hc
    obtain ⟨l, hl⟩ := charPerms_defined h hd (hide := hide) (first := first) (f := f) (pfx := pfx)
      (rest := (x :: xs).drop c.len) hg
    simp only [hl]
    split_ifs
    · apply flatMapE_defined
      intro p _
      obtain ⟨gs, hgs⟩ := genLoop_defined h hd hide fuel false p.filter (pfx ++ p.cp)
        (p.isVar || hasVar) ((x :: xs).drop c.len)
      simp only [hgs]
      exact ⟨_, rfl⟩
    all_goals exact ⟨_, rfl⟩

theorem genVariants_defined {env : FullEnv} {r : Repertoire} (h : WF r)
    (hd : RulesDefined env.toEnv r) (hide : Bool) (label : Seq) :
    ∃ gs, env.genVariants r hide label = .ok gs := genLoop_defined h hd _ _ _ _ _ _ _

end Lgr.Props

namespace Lgr.Props.C41
open Repertoire

/-- The scripts allowed together with the scripts satisfying `B`: those scripts, all scripts used
for Japanese with Katakana or Hiragana, and Latin with Hangul or Han. -/
def Allowed (B : String → Prop) (s : String) : Prop :=
  B s ∨ ((B "Katakana" ∨ B "Hiragana") ∧
      (s = "Han" ∨ s = "Latin" ∨ s = "Katakana" ∨ s = "Hiragana")) ∨
    ((B "Hangul" ∨ B "Han") ∧ s = "Latin")

/-- The scripts of a label, not counting Common and Inherited. -/
def LabelScript (env : FullEnv) (label : Seq) (s : String) : Prop :=
  (∃ x ∈ label, env.script x = s) ∧ s ≠ "Common" ∧ s ≠ "Inherited"

/-- Every code point brought in by a variant is in a script satisfying `P`. -/
def Substituted (env : FullEnv) (P : String → Prop) (ss : List Step) : Prop :=
  ∀ s ∈ ss, ∀ v, s.2 = some v → ∀ x ∈ v.cp, P (env.script x)

theorem permitted_iff {base : List String} {s : String} :
    s ∈ permittedScripts base ↔ Allowed (· ∈ base) s := by
  unfold permittedScripts Allowed
  by_cases h1 : "Katakana" ∈ base ∨ "Hiragana" ∈ base
  · by_cases h2 : "Han" ∈ base
    · simp only [h1, h2, if_true]; simp; tauto
    · simp only [h1, h2, if_true, if_false]; simp; tauto
  · by_cases h2 : "Han" ∈ base <;> by_cases h3 : "Hangul" ∈ base <;>
      simp only [h1, h2, h3, if_true, if_false] <;> simp <;> tauto

theorem baseScripts_iff {env : FullEnv} {label : Seq} {s : String} :
    s ∈ env.baseScripts label ↔ Allowed (LabelScript env label) s := by
  unfold FullEnv.baseScripts
  rw [permitted_iff]
  have : ∀ t, t ∈ (label.map env.script).filter (fun s => decide (s ∉ ignoredScripts)) ↔
      LabelScript env label t := by
    intro t; simp [LabelScript, ignoredScripts]
  simp only [Allowed, this]

theorem cpInScripts_iff {env : FullEnv} {cp : Seq} {l : List String} :
    env.cpInScripts cp l = true ↔ ∀ x ∈ cp, env.script x ∈ l := by
  simp [FullEnv.cpInScripts]

/-- Every label produced with mixed-script hiding is also produced without it. -/
theorem hiding_only_removes {env : FullEnv} {r : Repertoire} (h : WF r) {label : Seq}
    {gs gs' : List FullEnv.Gen} (he : env.genVariants r true label = .ok gs)
    (he' : env.genVariants r false label = .ok gs') {g : FullEnv.Gen} (hg : g ∈ gs) :
    ∃ g' ∈ gs', g'.cps = g.cps := by
  by_cases hl : label = []
  · subst hl
    rw [genVariants_nil] at he
    cases he; simp at hg
  · obtain ⟨ss, ho, hch, hm, rfl⟩ := (genLoop_spec h true _ _ _ _ _ _ _ hl (le_refl _) he g).1 hg
    obtain ⟨h1, h2, h3⟩ := chain_sound hch
    rw [build_cps]
    exact C23.produces_tried h he' ⟨ho, h1, h3⟩ h2 (by simpa using hm)

/-- The filter does not change after the first segment, and what follows is in its base. -/
theorem chain_rest {env : FullEnv} {r : Repertoire} : ∀ {f : ScriptFilter} {pfx : Seq}
    {ss : List Step}, Chain env r true false f pfx ss →
      ∀ s ∈ ss, ∀ x ∈ s.out, env.script x ∈ f.base
  | _, _, [], _ => by simp
  | f, pfx, (c, o) :: ss, ⟨h1, h2, f', h3, h4⟩ => by
    have hf : f' = f ∧ ∀ x ∈ Step.out (c, o), env.script x ∈ f.base := by
      cases o with
      | none =>
        obtain ⟨rfl, ha, _⟩ := h3
        exact ⟨rfl, cpInScripts_iff.1 (by simpa [Step.out] using ha rfl)⟩
      | some v =>
        obtain ⟨_, ha, _⟩ := h3
        simp only [FullEnv.scriptChoice, if_true, Bool.false_and, Bool.false_eq_true, if_false] at ha
        split_ifs at ha with hb
        · simp at ha
        · simp at ha
          exact ⟨ha.symm, cpInScripts_iff.1 (by simpa [Step.out] using hb)⟩
    obtain ⟨rfl, hx⟩ := hf
    intro s hs
    rcases List.mem_cons.1 hs with rfl | hs
    · exact hx
    · exact chain_rest h4 s hs

/-- The property at full strength, on scripts: what the variants bring in is allowed with the
label's scripts, or with one other script. -/
def OneScript : Prop :=
  ∀ (env : FullEnv) (ops : List Op) (label : Seq) (gs : List FullEnv.Gen) (g : FullEnv.Gen),
    env.genVariants (run {} ops) true label = .ok gs → g ∈ gs →
    ∃ ss, Rewrites env.toEnv (run {} ops) label ss ∧ g.cps = outOf ss ∧
      (Substituted env (Allowed (LabelScript env label)) ss ∨
        ∃ t, Substituted env (Allowed (· = t)) ss)

/-- Scripts of what is produced with hiding: either every substituted code point is allowed with
the label's scripts, or the first variant used is in other scripts and all the rest of the label is
allowed with the script of its first code point. -/
theorem hidden_scripts {env : FullEnv} {r : Repertoire} (h : WF r) {label : Seq}
    {gs : List FullEnv.Gen} (he : env.genVariants r true label = .ok gs) {g : FullEnv.Gen}
    (hg : g ∈ gs) :
    ∃ ss, Rewrites env.toEnv r label ss ∧ g.cps = outOf ss ∧
      (Substituted env (Allowed (LabelScript env label)) ss ∨
        ∃ c v y t ss', ss = (c, some v) :: ss' ∧ v.cp = y :: t ∧
          (∀ x ∈ v.cp, ¬ Allowed (LabelScript env label) (env.script x)) ∧
          ∀ s ∈ ss', ∀ x ∈ Step.out s, Allowed (· = env.script y) (env.script x)) := by
  by_cases hl : label = []
  · subst hl
    rw [genVariants_nil] at he
    cases he; simp at hg
  obtain ⟨ss, ho, hch, hm, rfl⟩ := (genLoop_spec h true _ _ _ _ _ _ _ hl (le_refl _) he g).1 hg
  obtain ⟨h1, h2, h3⟩ := chain_sound hch
  refine ⟨ss, ⟨ho, h1, h3⟩, build_cps ss, ?_⟩
  simp only [if_true] at hch
  have hother : ∀ s ∈ (env.mkFilter r label).other, s ∉ env.baseScripts label := by
    intro s hs; simp only [FullEnv.mkFilter, List.mem_filter, decide_eq_true_eq] at hs; exact hs.2
  have hbase : (env.mkFilter r label).base = env.baseScripts label := rfl
  have hsub : ∀ {rest : List Step}, (∀ s ∈ rest, ∀ x ∈ s.out, env.script x ∈ env.baseScripts label) →
      Substituted env (Allowed (LabelScript env label)) rest := by
    intro rest hr s hs v hv x hx
    rw [← baseScripts_iff]
    exact hr s hs x (by rw [Step.out, hv]; exact hx)
  cases ss with
  | nil => left; intro s hs; simp at hs
  | cons s ss =>
    obtain ⟨c, o⟩ := s
    obtain ⟨hg1, -, f', hp, hrest⟩ := hch
    have hr := chain_rest hrest
    cases o with
    | none =>
      obtain ⟨rfl, -, -⟩ := hp
      left
      intro s hs v hv
      rcases List.mem_cons.1 hs with rfl | hs
      · simp at hv
      · exact hsub (by rw [hbase] at hr; exact hr) s hs v hv
    | some v =>
      obtain ⟨hv, hsc, -⟩ := hp
      unfold FullEnv.scriptChoice at hsc
      simp only [if_true, Bool.true_and] at hsc
      cases hvc : v.cp with
      | nil => exact absurd hvc (variant_ne_nil h hg1 hv)
      | cons y t =>
        rw [hvc] at hsc
        split_ifs at hsc with ha hb
        · right
          simp only [Except.ok.injEq, Option.some.injEq] at hsc
          refine ⟨c, v, y, t, ss, rfl, hvc, ?_, ?_⟩
          · intro x hx
            rw [hvc] at hx
            rw [← baseScripts_iff]
            exact hother _ (cpInScripts_iff.1 ha x hx)
          · intro s hs x hx
            have := hr s hs x hx
            rw [← hsc] at this
            have := permitted_iff.1 this
            simpa [Allowed] using this
        · simp at hsc
        · simp only [Except.ok.injEq, Option.some.injEq] at hsc
          subst hsc
          left
          intro s hs w hw x hx
          rw [hbase] at hr hb
          rcases List.mem_cons.1 hs with rfl | hs
          · simp only [Option.some.injEq] at hw
            subst hw
            rw [hvc] at hx
            rw [← baseScripts_iff]
            exact cpInScripts_iff.1 (by simpa using hb) x hx
          · exact hsub hr s hs w hw x hx

/-- With variants that stay in one script, what is produced with hiding is as the property says.
Missing for the full property: variants mixing scripts, for which it is false. -/
theorem one_script_partial {env : FullEnv} {r : Repertoire} (h : WF r)
    (h1 : ∀ c, r.getChar c.cp = .ok c → ∀ v ∈ c.getVariants, ∀ x ∈ v.cp, ∀ y ∈ v.cp,
      env.script x = env.script y) {label : Seq}
    {gs : List FullEnv.Gen} (he : env.genVariants r true label = .ok gs) {g : FullEnv.Gen}
    (hg : g ∈ gs) :
    ∃ ss, Rewrites env.toEnv r label ss ∧ g.cps = outOf ss ∧
      (Substituted env (Allowed (LabelScript env label)) ss ∨
        ∃ t, Substituted env (Allowed (· = t)) ss) := by
  obtain ⟨ss, hr, hc, hs | ⟨c, v, y, t, ss', rfl, hv, _, hrest⟩⟩ := hidden_scripts h he hg
  · exact ⟨ss, hr, hc, Or.inl hs⟩
  · refine ⟨_, hr, hc, Or.inr ⟨env.script y, ?_⟩⟩
    intro s hs w hw x hx
    rcases List.mem_cons.1 hs with rfl | hs
    · simp only [Option.some.injEq] at hw
      subst hw
      left
      exact h1 c (hr.stored _ List.mem_cons_self) v ((hr.valid.1 v rfl).1) x hx y (by simp [hv])
    · exact hrest s hs x (by rw [Step.out, hw]; exact hx)

/-- The full property is false: a Latin letter with a variant of two letters, Greek and
Cyrillic. -/
theorem mixed_variant_not_hidden : ¬ OneScript := by
  intro h
  obtain ⟨ss, hr, hc, hs⟩ := h ⟨⟨fun _ _ _ _ => .ok true⟩, fun _ _ => .ok true,
      fun n => if n = 97 then "Latin" else if n = 945 then "Greek" else "Cyrillic"⟩
    [.addChar [97] {}, .addVariant [97] { cp := [945, 1072] }] [97] _
    ⟨[945, 1072], [], true, [[945, 1072]]⟩ (by rfl) (by decide +kernel)
  obtain ⟨c, v, hm, hv⟩ : ∃ c v, (c, some v) ∈ ss ∧ v.cp = [945, 1072] := by
    have hcon := hr.concat
    have hst := hr.stored
    cases ss with
    | nil => simp [origOf] at hcon
    | cons s ss =>
      have hne := getChar_ne_nil (hst s List.mem_cons_self)
      have hcon : s.1.cp ++ origOf ss = [97] := hcon
      have hcp : s.1.cp = [97] ∧ origOf ss = [] := by
        cases hx : s.1.cp with
        | nil => exact absurd hx hne
        | cons a l => rw [hx] at hcon; simp at hcon; simp [hcon]
      have : ss = [] := by
        cases ss with
        | nil => rfl
        | cons t ss =>
          have h0 : t.1.cp ++ origOf ss = [] := hcp.2
          simp at h0
          exact absurd h0.1 (getChar_ne_nil (hst t (by simp)))
      subst this
      obtain ⟨c, o⟩ := s
      simp only [outOf, List.flatMap_cons, List.flatMap_nil, List.append_nil] at hc
      cases o with
      | none => simp only [Step.out] at hc; simp only at hcp; rw [hcp.1] at hc; simp at hc
      | some v => exact ⟨c, v, by simp, hc.symm⟩
  rcases hs with hs | ⟨t, hs⟩
  · have := hs _ hm v rfl 945 (by simp [hv])
    simp [Allowed, LabelScript] at this
  · have h1 := hs _ hm v rfl 945 (by simp [hv])
    have h2 := hs _ hm v rfl 1072 (by simp [hv])
    simp [Allowed] at h1 h2
    rw [← h1] at h2
    simp at h2

/-- Non-vacuity: with a Greek and a Latin variant for each of two Latin letters, hiding keeps the
all-Greek and all-Latin labels and drops the mixed ones. -/
example : ((FullEnv.mk ⟨fun _ _ _ _ => .ok true⟩ (fun _ _ => .ok true)
      (fun n => if n < 200 then "Latin" else "Greek")).genVariants
    (run {} [.addChar [97] {}, .addChar [98] {}, .addVariant [97] { cp := [945] },
      .addVariant [97] { cp := [121] }, .addVariant [98] { cp := [946] }]) true [97, 98]).map
      (List.map FullEnv.Gen.cps)
    = .ok [[97, 98], [121, 98], [945, 946]] := by decide +kernel

end Lgr.Props.C41

namespace Lgr.Props.C47
open Repertoire

/-- Full property: a variant label whose code points are all Common, Inherited or allowed with
the scripts of the label is produced with hiding too. -/
def KeepsOwnScript : Prop :=
  ∀ (env : FullEnv) (ops : List Op) (label : Seq) (gs gs' : List FullEnv.Gen) (g : FullEnv.Gen),
    env.genVariants (run {} ops) false label = .ok gs →
    env.genVariants (run {} ops) true label = .ok gs' → g ∈ gs →
    (∀ x ∈ g.cps, env.script x = "Common" ∨ env.script x = "Inherited" ∨
      C41.Allowed (C41.LabelScript env label) (env.script x)) →
    ∃ g' ∈ gs', g'.cps = g.cps

/-- It is false: a digit (script Common) after the first character makes every variant vanish. -/
theorem digits_hide_all_variants : ¬ KeepsOwnScript := by
  intro h
  obtain ⟨g, hg, _⟩ := h ⟨⟨fun _ _ _ _ => .ok true⟩, fun _ _ => .ok true,
      fun n => if n = 49 then "Common" else "Latin"⟩
    [.addChar [97] {}, .addChar [49] {}, .addVariant [97] { cp := [225] }] [97, 49] _ []
    ⟨[225, 49], [], false, [[225], [49]]⟩ (by rfl) (by decide +kernel) (by decide +kernel) (by
      intro x hx
      simp at hx
      rcases hx with rfl | rfl
      · right; right; left; simp [C41.LabelScript]
      · left; rfl)
  simp at hg

theorem chain_hide {env : FullEnv} {r : Repertoire} (h : WF r) {f : ScriptFilter}
    (hf : ∀ s ∈ f.other, s ∉ f.base) : ∀ {first : Bool} {pfx : Seq} {ss : List Step},
      Chain env r false first {} pfx ss → (∀ s ∈ ss, ∀ x ∈ s.out, env.script x ∈ f.base) →
      Chain env r true first f pfx ss
  | _, _, [], _, _ => trivial
  | first, pfx, (c, o) :: ss, hch, hb => by
    obtain ⟨h1, h2, f', h3, h4⟩ := hch
    have hb0 := hb (c, o) List.mem_cons_self
    have hsc : ∀ w ∈ c.getVariants, (∀ x ∈ w.cp, env.script x ∈ f.base) →
        env.scriptChoice true first f w.cp = .ok (some f) := by
      intro w hw hx
      have hin := C41.cpInScripts_iff.2 hx
      have hne := variant_ne_nil h h1 hw
      have hnot : env.cpInScripts w.cp f.other = false := by
        rw [Bool.eq_false_iff, Ne, C41.cpInScripts_iff]
        intro hall
        cases hwc : w.cp with
        | nil => exact hne hwc
        | cons y t => exact hf _ (hall y (by simp [hwc])) (hx y (by simp [hwc]))
      unfold FullEnv.scriptChoice
      simp [hnot, hin]
    refine ⟨h1, h2, f, ?_, ?_⟩
    · cases o with
      | none =>
        obtain ⟨-, -, h5⟩ := h3
        refine ⟨rfl, fun _ => Or.inr (C41.cpInScripts_iff.2 hb0), ?_⟩
        intro v hv hvc _
        exact h5 v hv hvc ⟨_, rfl⟩
      | some v => exact ⟨h3.1, hsc v h3.1 hb0, h3.2.2⟩
    · have hf' : f' = {} := by
        cases o with
        | none => exact h3.1
        | some v => have := h3.2.1; simp [FullEnv.scriptChoice] at this; exact this.symm
      rw [hf'] at h4
      exact chain_hide h hf h4 (fun s hs => hb s (List.mem_cons_of_mem _ hs))

/-- Variant labels entirely in scripts allowed with those of the label survive the hiding. Missing
for the full property: code points of script Common or Inherited, for which it is false. -/
theorem keeps_own_script_partial {env : FullEnv} {r : Repertoire} (h : WF r) {label : Seq}
    {gs gs' : List FullEnv.Gen} (he : env.genVariants r false label = .ok gs)
    (he' : env.genVariants r true label = .ok gs') {g : FullEnv.Gen} (hg : g ∈ gs)
    (hs : ∀ x ∈ g.cps, C41.Allowed (C41.LabelScript env label) (env.script x)) : g ∈ gs' := by
  by_cases hl : label = []
  · subst hl
    rw [genVariants_nil] at he
    cases he; simp at hg
  · obtain ⟨ss, ho, hch, hm, rfl⟩ := (genLoop_spec h false _ _ _ _ _ _ _ hl (le_refl _) he g).1 hg
    refine (genLoop_spec h true _ _ _ _ _ _ _ hl (le_refl _) he' _).2 ⟨ss, ho, ?_, hm, rfl⟩
    refine chain_hide h ?_ hch ?_
    · intro s hs'
      simp only [if_true, FullEnv.mkFilter, List.mem_filter, decide_eq_true_eq] at hs'
      exact hs'.2
    · intro s hs' x hx
      have : x ∈ (build ss).cps := by
        rw [build_cps]; exact List.mem_flatMap.2 ⟨s, hs', hx⟩
      exact C41.baseScripts_iff.2 (hs x this)

end Lgr.Props.C47

import Verif.Props.MergeLabels
import Verif.Props.PopulateIndex
import Verif.Props.AnnotateSet

/-!
# C139: collisions in the merge of a set of LGRs
-/

namespace Lgr.Props.C139
open Lgr LGR Repertoire FullEnv C50 C26 C28 Compare MergeSet C45 C98 C132 C134 Relation

/-- Two labels are written with sequences of `P`, position by position related by `R`. -/
def Aligned (P : Seq → Prop) (R : Seq → Seq → Prop) (l l' : Seq) : Prop :=
  ∃ xs ys : List Seq, xs.flatten = l ∧ ys.flatten = l' ∧ (∀ x ∈ xs, P x) ∧ (∀ y ∈ ys, P y) ∧ List.Forall₂ R xs ys

theorem Aligned.imp {P Q : Seq → Prop} {R S : Seq → Seq → Prop} (h1 : ∀ x, P x → Q x) (h2 : ∀ x y, R x y → S x y)
    {l l' : Seq} (h : Aligned P R l l') : Aligned Q S l l' := by
  obtain ⟨xs, ys, a, b, c, d, e⟩ := h
  exact ⟨xs, ys, a, b, fun x hx => h1 x (c x hx), fun y hy => h1 y (d y hy), e.imp fun x y => h2 x y⟩

/-- In a repertoire in which no entry begins another one, whose variants are unconditional, symmetric and transitive,
two labels have the same index label just if they are position by position variants. -/
theorem index_iff {env : FullEnv} {r : Repertoire} (w : WF r) (hpf : C14.PrefixFree r) (hu : Unconditional r)
    (hs : SymmetricR r) (ht : TransitiveR r) (hd : RulesDefined env.toEnv r) {l l' : Seq} (hl : l ≠ []) (hl' : l' ≠ [])
    (ha : Accepted env r l) (ha' : Accepted env r l') :
    ∃ i i', env.indexLabel r l 0 = .ok i ∧ env.indexLabel r l' 0 = .ok i' ∧
      (i = i' ↔ Aligned (fun x => ∃ c, r.getChar x = .ok c) (Cls r) l l') := by
  obtain ⟨p, hp, hok⟩ := ha
  obtain ⟨p', hp', hok'⟩ := ha'
  obtain ⟨i, hii, -⟩ := C17.index_of_accepted w hd hl hp hok
  obtain ⟨i', hii', -⟩ := C17.index_of_accepted w hd hl' hp' hok'
  refine ⟨i, i', hii, hii', ?_⟩
  obtain ⟨ms, hms, rfl⟩ := index_classes w hpf hu hl hp hok hd hii
  obtain ⟨ms', hms', rfl⟩ := index_classes w hpf hu hl' hp' hok' hd hii'
  have hseg := (C13.accepted_is_segmentation w hp hok).1
  have hseg' := (C13.accepted_is_segmentation w hp' hok').1
  have hflat : ms.flatten = ms'.flatten ↔ ms = ms' :=
    ⟨flatten_unique hpf (least_stored hs hseg.stored hms) (least_stored hs hseg'.stored hms'), fun h => by rw [h]⟩
  have hk : ∀ cs : List CharObj, (∀ c ∈ cs, r.getChar c.cp = .ok c) → ∀ x ∈ cs.map CharObj.cp,
      ∃ c, r.getChar x = .ok c := by
    intro cs hcs x hx
    obtain ⟨c, hc, rfl⟩ := List.mem_map.1 hx
    exact ⟨c, hcs c hc⟩
  rw [hflat, least_iff hs ht hms hms']
  constructor
  · intro hf
    refine ⟨p.chars.map CharObj.cp, p'.chars.map CharObj.cp, hseg.concat, hseg'.concat,
      hk _ hseg.stored, hk _ hseg'.stored, ?_⟩
    rw [List.forall₂_map_left_iff, List.forall₂_map_right_iff]
    exact hf
  · rintro ⟨xs, ys, h1, h2, h3, h4, h5⟩
    have e1 : xs = p.chars.map CharObj.cp := flatten_unique hpf h3 (hk _ hseg.stored) (h1.trans hseg.concat.symm)
    have e2 : ys = p'.chars.map CharObj.cp := flatten_unique hpf h4 (hk _ hseg'.stored) (h2.trans hseg'.concat.symm)
    rw [e1, e2, List.forall₂_map_left_iff, List.forall₂_map_right_iff] at h5
    exact h5

/-- Variants of variants are variants. -/
def Transitive (g : LGR) : Prop := ∀ x y z, Pair g x y → Pair g y z → x ≠ z → Pair g x z

/-- Mappings go both ways. -/
def Symmetric (g : LGR) : Prop := ∀ x y, Pair g x y → Pair g y x

theorem pre_none (s : String) : preRule s none = none := rfl

section
variable (ord : SetOrder) (valid : String → Bool) (l : List Input) (hg : ∀ i ∈ l, Good i)
  (m : LGR) (h : mergeSet ord valid l = .ok m)

include hg h in
/-- A variant of an LGR of the set is a variant in the merge. -/
theorem merge_pair {x y : Seq} (hp : PairIn l x y) : Pair m x y := by
  obtain ⟨i, hi, v, hv, rfl⟩ := hp
  obtain ⟨u, h1, h2, -⟩ := merge_variants_partial ord valid l hg m h i hi x v hv
  exact ⟨u, h1, h2⟩

include hg h in
/-- If the mappings of all LGRs together are symmetric and transitive, those of the merge are. -/
theorem merge_transitive_of (hs : ∀ i ∈ l, Symmetric i.lgr)
    (ht : ∀ x y z, PairIn l x y → PairIn l y z → x ≠ z → PairIn l x z) : Transitive m := by
  have hs' : ∀ x y, PairIn l x y → PairIn l y x := by
    rintro x y ⟨i, hi, hp⟩
    exact ⟨i, hi, hs i hi x y hp⟩
  have key : ∀ {x y}, EqvGen (PairIn l) x y → x = y ∨ PairIn l x y := by
    intro x y he
    induction he with
    | rel _ _ hp => exact .inr hp
    | refl _ => exact .inl rfl
    | symm _ _ _ ih => exact ih.imp Eq.symm (hs' _ _)
    | trans a b c _ _ ih1 ih2 =>
      rcases ih1 with rfl | ih1
      · exact ih2
      · rcases ih2 with rfl | ih2
        · exact .inr ih1
        · by_cases hac : a = c
          · exact .inl hac
          · exact .inr (ht _ _ _ ih1 ih2 hac)
  intro x y z h1 h2 hz
  have := (merge_variant_sets ord valid l hg m h x z).1 (.trans _ _ _ (.rel _ _ h1) (.rel _ _ h2))
  exact merge_pair ord valid l hg m h ((key this).resolve_left hz)

include hg h in
/-- **C139** Let no variant of the LGRs have a context rule and no entry begin another one, the LGRs be symmetric, and
the merge transitive. Two labels which the merge accepts have the same index label just if they are written with code
points and sequences of the set which are position by position joined by chains of variant mappings of any of the
LGRs. Missing for the full property: merges which are not transitive, where it is false (`missed_wrong`),
conditional variants, and entries which begin others. -/
theorem merge_collisions_partial (hs : ∀ i ∈ l, Symmetric i.lgr) (ht : Transitive m)
    (hu : ∀ i ∈ l, ∀ x v, Maps i.lgr x v → v.whenR = none ∧ v.notWhenR = none)
    (hp : Free (fun k => ∃ i ∈ l, In i.lgr k)) (env : FullEnv)
    (hd : ∀ k w, Uses m k w → ∀ l a o, ∃ b, env.ruleMatches w l a o = .ok b)
    (a b : Seq) (ha : a ≠ []) (hb : b ≠ []) (haa : Accepts env.toEnv m a) (hab : Accepts env.toEnv m b) :
    ∃ i i', env.indexLabel m.rep a 0 = .ok i ∧ env.indexLabel m.rep b 0 = .ok i' ∧
      (i = i' ↔ Aligned (fun k => ∃ i ∈ l, In i.lgr k) (EqvGen (PairIn l)) a b) := by
  have hin := merge_code_points ord valid l hg m h
  have hnone : ∀ x v, Maps m x v → v.whenR = none ∧ v.notWhenR = none := by
    intro x v hv
    rcases (merge_no_other_variants ord valid l hg m h x v hv).2 with ⟨i, hi, u, h1, -, -, h2, h3⟩ | ⟨h1, -⟩
    · rw [h2, h3, (hu i hi x u h1).1, (hu i hi x u h1).2]
      exact ⟨rfl, rfl⟩
    · rw [h1]; exact ⟨rfl, rfl⟩
  have hs' : SymmetricR m.rep := fun x y hxy =>
    varRel_pair.2 (merge_symmetric ord valid l hg hs m h _ _ (varRel_pair.1 hxy))
  have ht' : TransitiveR m.rep := fun x y z h1 h2 hz => varRel_pair.2 (ht _ _ _ (varRel_pair.1 h1) (varRel_pair.1 h2) hz)
  have hu' : Unconditional m.rep := fun c hc v hv => hnone c.cp v ⟨c, getChar_ok.1 hc, hv⟩
  have hd' : RulesDefined env.toEnv m.rep := by
    refine ⟨fun c hc s hsc => hd c.cp s ⟨c, getChar_ok.1 hc, hsc⟩, fun c hc v hv s hsv => ?_⟩
    obtain ⟨h1, h2⟩ := hnone c.cp v ⟨c, getChar_ok.1 hc, hv⟩
    rw [h1, h2] at hsv
    simp at hsv
  have hpf := prefixFree hp fun k hk => (hin k).1 hk
  obtain ⟨i, i', e1, e2, e3⟩ := index_iff (C137.merge_wf ord valid l hg m h) hpf hu' hs' ht' hd' ha hb haa hab
  refine ⟨i, i', e1, e2, e3.trans ?_⟩
  have hst : ∀ x, (∃ c, m.rep.getChar x = .ok c) ↔ ∃ i ∈ l, In i.lgr x := fun x =>
    Iff.trans (exists_congr fun c => getChar_ok) (hin x)
  have hcls : ∀ x y, Cls m.rep x y ↔ EqvGen (PairIn l) x y := by
    intro x y
    rw [← merge_variant_sets ord valid l hg m h]
    unfold Cls
    rw [varRel_pair]
    constructor
    · rintro (rfl | h1)
      · exact .refl _
      · exact .rel _ _ h1
    · intro he
      induction he with
      | rel _ _ hp => exact .inr hp
      | refl _ => exact .inl rfl
      | symm _ _ _ ih => exact ih.imp Eq.symm (merge_symmetric ord valid l hg hs m h _ _)
      | trans a b c _ _ ih1 ih2 =>
        rcases ih1 with rfl | ih1
        · exact ih2
        · rcases ih2 with rfl | ih2
          · exact .inr ih1
          · by_cases hac : a = c
            · exact .inl hac
            · exact .inr (ht _ _ _ ih1 ih2 hac)
  exact ⟨Aligned.imp (fun x => (hst x).1) fun x y => (hcls x y).1, Aligned.imp (fun x => (hst x).2) fun x y => (hcls x y).2⟩

include hg h in
/-- **C139** Under these conditions, labels that collide in one of the LGRs, which is transitive, collide in the merge
if it accepts them. -/
theorem merge_keeps_collisions_partial (hs : ∀ i ∈ l, Symmetric i.lgr) (ht : Transitive m)
    (hu : ∀ i ∈ l, ∀ x v, Maps i.lgr x v → v.whenR = none ∧ v.notWhenR = none)
    (hp : Free (fun k => ∃ i ∈ l, In i.lgr k)) (env env' : FullEnv)
    (hd : ∀ k w, Uses m k w → ∀ l a o, ∃ b, env.ruleMatches w l a o = .ok b)
    (i : Input) (hi : i ∈ l) (hti : Transitive i.lgr)
    (hd' : ∀ k w, Uses i.lgr k w → ∀ l a o, ∃ b, env'.ruleMatches w l a o = .ok b)
    (a b : Seq) (ha : a ≠ []) (hb : b ≠ []) (haa : Accepts env.toEnv m a) (hab : Accepts env.toEnv m b)
    (hia : Accepts env'.toEnv i.lgr a) (hib : Accepts env'.toEnv i.lgr b)
    (hsame : env'.indexLabel i.lgr.rep a 0 = env'.indexLabel i.lgr.rep b 0) :
    ∃ j, env.indexLabel m.rep a 0 = .ok j ∧ env.indexLabel m.rep b 0 = .ok j := by
  obtain ⟨j, j', e1, e2, e3⟩ := merge_collisions_partial ord valid l hg m h hs ht hu hp env hd a b ha hb haa hab
  have hdi : RulesDefined env'.toEnv i.lgr.rep := by
    refine ⟨fun c hc s hsc => hd' c.cp s ⟨c, getChar_ok.1 hc, hsc⟩, fun c hc v hv s hsv => ?_⟩
    obtain ⟨h1, h2⟩ := hu i hi c.cp v ⟨c, getChar_ok.1 hc, hv⟩
    rw [h1, h2] at hsv
    simp at hsv
  obtain ⟨k, k', f1, f2, f3⟩ := index_iff (env := env') (hg i hi).wf (prefixFree hp fun k hk => ⟨i, hi, hk⟩)
    (fun c hc v hv => hu i hi c.cp v ⟨c, getChar_ok.1 hc, hv⟩)
    (fun x y hxy => varRel_pair.2 (hs i hi _ _ (varRel_pair.1 hxy)))
    (fun x y z h1 h2 hz => varRel_pair.2 (hti _ _ _ (varRel_pair.1 h1) (varRel_pair.1 h2) hz)) hdi ha hb hia hib
  rw [f1, f2] at hsame
  cases hsame
  have := e3.2 (Aligned.imp (fun x hx => ⟨i, hi, hx.imp fun c hc => getChar_ok.1 hc⟩) (fun x y hxy => by
    rcases hxy with rfl | hxy
    · exact .refl _
    · exact .rel _ _ ⟨i, hi, varRel_pair.1 hxy⟩) (f3.1 rfl))
  exact ⟨j, e1, this ▸ e2⟩

include hg h in
/-- **C139** Hence, when labels are annotated with the set, label `a` collides with the label `b` of the set if they
have the same index label in the LGR of the script. -/
theorem annotate_finds_partial (hs : ∀ i ∈ l, Symmetric i.lgr) (ht : Transitive m)
    (hu : ∀ i ∈ l, ∀ x v, Maps i.lgr x v → v.whenR = none ∧ v.notWhenR = none)
    (hp : Free (fun k => ∃ i ∈ l, In i.lgr k)) (env env' : FullEnv)
    (hd : ∀ k w, Uses m k w → ∀ l a o, ∃ b, env.ruleMatches w l a o = .ok b)
    (i : Input) (hi : i ∈ l) (hti : Transitive i.lgr)
    (hd' : ∀ k w, Uses i.lgr k w → ∀ l a o, ∃ b, env'.ruleMatches w l a o = .ok b)
    (a b : Seq) (ha : a ≠ []) (hb : b ≠ []) (haa : Accepts env.toEnv m a) (hab : Accepts env.toEnv m b)
    (hia : Accepts env'.toEnv i.lgr a) (hib : Accepts env'.toEnv i.lgr b)
    (hsame : env'.indexLabel i.lgr.rep a 0 = env'.indexLabel i.lgr.rep b 0) (hne : a ≠ b)
    (actions : List Action) {ks : List Seq} (hk : b ∈ ks) : C138.Collides ⟨env, m.rep, actions⟩ ks a := by
  obtain ⟨j, h1, h2⟩ := merge_keeps_collisions_partial ord valid l hg m h hs ht hu hp env env' hd i hi hti hd' a b ha hb
    haa hab hia hib hsame
  exact ⟨b, hk, hne.symm, j, h2, h1⟩
end

/-! ## What goes wrong -/

/-- Rules are met. -/
def envT : FullEnv := ⟨⟨fun _ _ _ _ => .ok true⟩, fun _ _ => .ok true, fun _ => "Latn"⟩

/-- 8 and 9, variants. -/
def twoA : Input := mk "und-A" ([add 8, add 9] ++ vars 9 8)
/-- 9 and 1 are variants, 8 and 2 also. -/
def twoB : Input := mk "und-B" ([add 9, add 8, add 1, add 2] ++ vars 9 1 ++ vars 8 2)
theorem good_twoA : Good twoA := good_mk _ _ _ rfl (by decide +kernel) (by decide +kernel)
theorem good_twoB : Good twoB := good_mk _ _ _ rfl (by decide +kernel) (by decide +kernel)

theorem symmetric_of' {g : LGR} (w : WF g.rep) (h : ∀ m ∈ mappings g.rep, (m.2, m.1) ∈ mappings g.rep) : Symmetric g :=
  fun _ _ hp => varRel_pair.1 (symmetric_of w h _ _ (varRel_pair.2 hp))

theorem transitive_of' {g : LGR} (w : WF g.rep)
    (h : ∀ m ∈ mappings g.rep, ∀ n ∈ mappings g.rep, m.2 = n.1 → m.1 ≠ n.2 → (m.1, n.2) ∈ mappings g.rep) :
    Transitive g :=
  fun _ _ _ h1 h2 hz => varRel_pair.1 (transitive_of w h _ _ _ (varRel_pair.2 h1) (varRel_pair.2 h2) hz)

/-- **C139** is violated: both LGRs are symmetric and transitive, without rules and sequences. The labels 8 and 2 are
variants in the second one and have the same index label there, but not in the merge. -/
theorem missed_wrong : ∃ (l : List Input) (i : Input) (m : LGR), (∀ i ∈ l, Good i ∧ Symmetric i.lgr ∧ Transitive i.lgr) ∧
    (l.map Input.script).Nodup ∧ i ∈ l ∧ mergeSet ord0 (fun _ => true) l = .ok m ∧
    Pair i.lgr [8] [2] ∧ envT.indexLabel i.lgr.rep [8] 0 = .ok [2] ∧ envT.indexLabel i.lgr.rep [2] 0 = .ok [2] ∧
    envT.indexLabel m.rep [8] 0 = .ok [1] ∧ envT.indexLabel m.rep [2] 0 = .ok [2] := by
  refine ⟨[twoA, twoB], twoB, got [twoA, twoB], ?_, by decide +kernel, by simp, by decide +kernel,
    ⟨⟨[2], some "blocked", none, none, none, []⟩, maps_of (by decide +kernel), rfl⟩,
    by decide +kernel, by decide +kernel, by decide +kernel, by decide +kernel⟩
  intro i hi
  simp only [List.mem_cons, List.not_mem_nil, or_false] at hi
  rcases hi with rfl | rfl
  · exact ⟨good_twoA, symmetric_of' good_twoA.wf (by decide +kernel), transitive_of' good_twoA.wf (by decide +kernel)⟩
  · exact ⟨good_twoB, symmetric_of' good_twoB.wf (by decide +kernel), transitive_of' good_twoB.wf (by decide +kernel)⟩

open C110 (read1) in
/-- So the tool that annotates labels does not report label 2, though its variant 8 is in the set. -/
theorem annotate_misses : AnnotateSet.annotate ⟨envT, (got [twoA, twoB]).rep, []⟩ ⟨envT, twoB.lgr.rep, []⟩
    (fun _ _ => "") List.dedup (fun l => [l]) (fun _ => "") [read1 [8]] [read1 [2]] =
    ([.header, .footer, .block ⟨[2], "valid", none, []⟩], .ok ()) := by decide +kernel

/-! ## A set that meets the hypotheses -/

/-- 1 and 2 are variants in one LGR, 2 and 3 in the other one. -/
def oneA : Input := mk "und-A" ([add 1, add 2] ++ vars 1 2)
def oneB : Input := mk "und-B" ([add 2, add 3] ++ vars 2 3)
theorem good_oneA : Good oneA := good_mk _ _ _ rfl (by decide +kernel) (by decide +kernel)
theorem good_oneB : Good oneB := good_mk _ _ _ rfl (by decide +kernel) (by decide +kernel)

theorem one_merged : mergeSet ord0 (fun _ => true) [oneA, oneB] = .ok (got [oneA, oneB]) := by decide +kernel

theorem one_good : ∀ i ∈ [oneA, oneB], Good i ∧ Symmetric i.lgr ∧
    ∀ x v, Maps i.lgr x v → v.whenR = none ∧ v.notWhenR = none := by
  have key : ∀ {g : LGR} (w : WF g.rep), (g.rep.allChars.all fun c => c.getVariants.all fun v =>
      decide (v.whenR = none ∧ v.notWhenR = none)) = true → ∀ x v, Maps g x v → v.whenR = none ∧ v.notWhenR = none := by
    rintro g w h x v ⟨c, hc, hv⟩
    rw [List.all_eq_true] at h
    have := h c ((mem_allChars w c).2 (by rw [lookup_cp hc]; exact hc))
    rw [List.all_eq_true] at this
    simpa using this v hv
  intro i hi
  simp only [List.mem_cons, List.not_mem_nil, or_false] at hi
  rcases hi with rfl | rfl
  · exact ⟨good_oneA, symmetric_of' good_oneA.wf (by decide +kernel), key good_oneA.wf (by decide +kernel)⟩
  · exact ⟨good_oneB, symmetric_of' good_oneB.wf (by decide +kernel), key good_oneB.wf (by decide +kernel)⟩

example : Transitive (got [oneA, oneB]) ∧ Free (fun k => ∃ i ∈ [oneA, oneB], In i.lgr k) ∧
    (∀ k w, Uses (got [oneA, oneB]) k w → ∀ l a o, ∃ b, envT.ruleMatches w l a o = .ok b) ∧
    Accepts envT.toEnv (got [oneA, oneB]) [1, 1] ∧ Accepts envT.toEnv (got [oneA, oneB]) [3, 2] ∧
    envT.indexLabel (got [oneA, oneB]).rep [1, 1] 0 = .ok [1, 1] ∧
    envT.indexLabel (got [oneA, oneB]).rep [3, 2] 0 = .ok [1, 1] := by
  have w := C137.merge_wf ord0 _ _ (fun i hi => (one_good i hi).1) _ one_merged
  refine ⟨transitive_of' w (by decide +kernel), ?_, fun _ _ _ _ _ _ => ⟨_, rfl⟩,
    ⟨(envT.prelim (got [oneA, oneB]).rep [1, 1]).toOption.get!, by decide +kernel, by decide +kernel⟩,
    ⟨(envT.prelim (got [oneA, oneB]).rep [3, 2]).toOption.get!, by decide +kernel, by decide +kernel⟩,
    by decide +kernel, by decide +kernel⟩
  have hin : ∀ k, (∃ i ∈ [oneA, oneB], In i.lgr k) → k = [1] ∨ k = [2] ∨ k = [3] := by
    intro k
    simp only [List.mem_cons, List.not_mem_nil, or_false, exists_eq_or_imp, exists_eq_left,
      in_iff good_oneA.wf, in_iff good_oneB.wf,
      show oneA.lgr.rep.allChars.map CharObj.cp = [[1], [2]] by decide +kernel,
      show oneB.lgr.rep.allChars.map CharObj.cp = [[2], [3]] by decide +kernel]
    tauto
  intro k l hk hl hp
  rcases hin k hk with rfl | rfl | rfl <;> rcases hin l hl with rfl | rfl | rfl <;> simp_all

end Lgr.Props.C139
